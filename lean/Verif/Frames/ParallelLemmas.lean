import Verif.Frames.ParallelModel
import Verif.Frames.BarrierLemmas
import Verif.Frames.IterLemmas

/-! Helper lemmas: the workers' programs as segments between barriers. -/

namespace Verif.Frames
open Verif.Bits Verif.Bitmap Verif.Dense Verif.Arr

variable {V : Type}

/-! ## Copying keeps the number of frames -/

theorem setAll_length {s : Nat} : ∀ (ws : List (Int × (Bool × V))) (fs fs' : List (Frame V)),
    setAll s ws fs = some fs' → fs'.length = fs.length := by
  intro ws
  induction ws with
  | nil => intro fs fs' h; cases h; rfl
  | cons w ws ih =>
    intro fs fs' h
    rw [setAll] at h
    obtain ⟨fs1, h1, h2⟩ := Option.bind_eq_some_iff.1 h
    rw [ih _ _ h2]
    unfold setAt at h1
    split at h1
    · split at h1
      · cases h1
      · cases h1; simp
    · cases h1

theorem copyFull_length {values : List V} {start s : Nat} {fs fs' : List (Frame V)}
    (h : copyFull values start s fs = some fs') : fs'.length = fs.length := by
  unfold copyFull at h
  obtain ⟨ws, _, h2⟩ := Option.bind_eq_some_iff.1 h
  exact setAll_length _ _ _ h2

theorem copyBits_length {bm : List Word} {values : List V} {first start s : Nat}
    {fs fs' : List (Frame V)} (h : copyBits bm values first start s fs = some fs') :
    fs'.length = fs.length := by
  unfold copyBits at h
  obtain ⟨bits, _, h2⟩ := Option.bind_eq_some_iff.1 h
  obtain ⟨ws, _, h3⟩ := Option.bind_eq_some_iff.1 h2
  exact setAll_length _ _ _ h3

theorem copyIn_length {junk : V} {a : In V} {slot : Scalar} {cur : Nat} {fs fs' : List (Frame V)}
    (h : copyIn junk a slot cur fs = some fs') : fs'.length = fs.length := by
  unfold copyIn at h
  split at h
  · unfold copyDense at h
    split at h
    · exact copyFull_length h
    · split at h
      · exact copyFull_length h
      · exact copyBits_length h
  · unfold copySparse at h
    split at h
    · exact copyFull_length h
    · split at h
      · exact copyBits_length h
      · obtain ⟨ws, _, h2⟩ := Option.bind_eq_some_iff.1 h
        rw [setAll_length _ _ _ h2]; simp

theorem preload_length {junk : V} {cur : Nat} : ∀ (ms : List (In V × Scalar)) (fs fs' : List (Frame V)),
    preload junk cur ms fs = some fs' → fs'.length = fs.length := by
  intro ms
  induction ms with
  | nil => intro fs fs' h; cases h; rfl
  | cons m ms ih =>
    intro fs fs' h
    rw [preload] at h
    obtain ⟨fs1, h1, h2⟩ := Option.bind_eq_some_iff.1 h
    rw [ih _ _ h2, copyIn_length h1]

/-! ## Segments -/

/-- Number of iterations. -/
def blocks (B rc : Nat) : Nat := (rc + B - 1) / B

/-- Rows of iteration `k`. -/
def cnt (B rc k : Nat) : Nat := min B (rc - k * B)

theorem lt_blocks {B rc k : Nat} (hB : 0 < B) : k < blocks B rc ↔ k * B < rc := by
  unfold blocks
  rw [Nat.lt_iff_add_one_le, Nat.le_div_iff_mul_le hB, Nat.add_mul]
  omega

/-- Actions of worker `w` before its `g`-th barrier. -/
def segs (B rc T w g : Nat) : List Act :=
  if g % 2 = 0 then
    if w = 0 then
      (if g = 0 then [] else [.save (cnt B rc (g / 2 - 1))]) ++
        (if g / 2 < blocks B rc then [.preload (cnt B rc (g / 2))] else [])
    else []
  else (ownFrames B T (cnt B rc (g / 2)) w).map .apply

/-- The save of the previous iteration. -/
def pre (B rc w k : Nat) : List (Instr Act) :=
  if w = 0 ∧ 0 < k then [.act (.save (cnt B rc (k - 1)))] else []

theorem workerProg_eq {B rc T w : Nat} (hB : 0 < B) : ∀ (fuel k : Nat), k ≤ blocks B rc →
    blocks B rc < k + fuel →
    pre B rc w k ++ workerProg B rc T w fuel (k * B) =
      progFrom (segs B rc T w) (2 * k) (2 * (blocks B rc - k)) := by
  intro fuel
  induction fuel with
  | zero => intro k h1 h2; omega
  | succ fuel ih =>
    intro k h1 h2
    have e1 : 2 * k % 2 = 0 := by omega
    have e2 : 2 * k / 2 = k := by omega
    have e3 : (2 * k + 1) % 2 = 1 := by omega
    have e4 : (2 * k + 1) / 2 = k := by omega
    rw [workerProg]
    by_cases hk : k < blocks B rc
    · rw [if_pos ((lt_blocks hB).1 hk)]
      have ihk := ih (k + 1) (by omega) (by omega)
      rw [Nat.add_mul, Nat.one_mul] at ihk
      rw [show 2 * (blocks B rc - k) = 2 * (blocks B rc - (k + 1)) + 1 + 1 by omega, progFrom, progFrom,
        show 2 * k + 1 + 1 = 2 * (k + 1) by omega, ← ihk]
      have s0 : (segs B rc T w (2 * k)).map Instr.act = pre B rc w k ++
          (if w = 0 then [.act (.preload (cnt B rc k))] else []) := by
        unfold segs pre
        rw [if_pos e1, e2]
        by_cases hw : w = 0
        · by_cases hk0 : k = 0
          · subst hk0; simp [hw, hk]
          · have hk2 : ¬ 2 * k = 0 := by omega
            rw [if_neg hk2]
            simp [hw, hk, Nat.pos_of_ne_zero hk0]
        · simp [hw]
      have s1 : (segs B rc T w (2 * k + 1)).map Instr.act =
          (ownFrames B T (cnt B rc k) w).map (fun i => .act (.apply i)) := by
        unfold segs
        rw [if_neg (by omega), e4, List.map_map]; rfl
      have s2 : pre B rc w (k + 1) = if w = 0 then [.act (.save (cnt B rc k))] else [] := by
        unfold pre
        simp
      rw [s0, s1, s2, e1, e3]
      simp only [cnt]
      simp [List.append_assoc]
    · have hkb : k = blocks B rc := by omega
      have hlt : ¬ k * B < rc := fun h => hk ((lt_blocks hB).2 h)
      rw [if_neg hlt, List.append_nil, show 2 * (blocks B rc - k) = 0 by omega, progFrom]
      unfold segs pre
      rw [if_pos e1, e2, if_neg hk]
      by_cases hw : w = 0
      · by_cases hk0 : k = 0
        · subst hk0; simp [hw]
        · have hk2 : ¬ 2 * k = 0 := by omega
          rw [if_neg hk2]
          simp [hw, Nat.pos_of_ne_zero hk0]
      · simp [hw]

/-! ## Who works on which frame -/

theorem own_range {B T c : Nat} : ∀ t,
    ((List.range t).map (fun w => ownFrames B T c w)).flatten =
      List.range (min c (t * framesPerWorker B T)) := by
  intro t
  generalize hf : framesPerWorker B T = f
  induction t with
  | zero => simp
  | succ t ih =>
    rw [List.range_succ, List.map_append, List.flatten_append, ih]
    simp only [List.map_cons, List.map_nil, List.flatten_cons, List.flatten_nil, List.append_nil,
      ownFrames, hf]
    have hmul : (t + 1) * f = t * f + f := by rw [Nat.add_mul, Nat.one_mul]
    rw [hmul, List.range_eq_range', List.range_eq_range']
    by_cases h : t * f ≤ c
    · rw [show min c (t * f) = t * f by omega]
      have := List.range'_append (s := 0) (m := t * f) (n := min c (t * f + f) - t * f) (step := 1)
      simp only [Nat.one_mul, Nat.zero_add] at this
      rw [this]
      congr 1
      omega
    · rw [show min c (t * f + f) - t * f = 0 by omega, show min c (t * f) = c by omega,
        show min c (t * f + f) = c by omega]
      simp

theorem own_cover {B T c : Nat} (hT : 0 < T) (hc : c ≤ B) :
    ((List.range T).map (fun w => ownFrames B T c w)).flatten = List.range c := by
  rw [own_range]
  congr 1
  have : B ≤ T * framesPerWorker B T := by
    unfold framesPerWorker
    have h1 := Nat.div_add_mod (B + T - 1) T
    have h2 := Nat.mod_lt (B + T - 1) hT
    omega
  omega

theorem own_disjoint {B T c w v i : Nat} (hwv : w ≠ v) (h1 : i ∈ ownFrames B T c w) :
    i ∉ ownFrames B T c v := by
  intro h2
  simp only [ownFrames, List.mem_range'_1] at h1 h2
  generalize framesPerWorker B T = f at h1 h2
  rcases Nat.lt_or_gt_of_ne hwv with h | h
  · have : (w + 1) * f ≤ v * f := Nat.mul_le_mul_right f h
    omega
  · have : (v + 1) * f ≤ w * f := Nat.mul_le_mul_right f h
    omega

/-! ## The sequential run, block by block -/

theorem chain {junk : V} {it : Iter V} {fn : Frame V → Frame V} (hB : 0 < it.frames) :
    ∀ (fuel k : Nat) (s stF : LoopSt V), k ≤ blocks it.frames it.rowCount →
    forEachFrame junk it fn fuel (k * it.frames) s = some stF →
    ∃ st : Nat → LoopSt V, st k = s ∧ st (blocks it.frames it.rowCount) = stF ∧
      ∀ j, k ≤ j → j < blocks it.frames it.rowCount →
        block junk it fn (cnt it.frames it.rowCount j) (st j) = some (st (j + 1)) := by
  intro fuel
  induction fuel with
  | zero => intro k s stF _ h; cases h
  | succ fuel ih =>
    intro k s stF hk h
    rw [forEachFrame] at h
    by_cases hlt : k < blocks it.frames it.rowCount
    · rw [if_pos ((lt_blocks hB).1 hlt)] at h
      obtain ⟨s1, h1, h2⟩ := Option.bind_eq_some_iff.1 h
      rw [show k * it.frames + it.frames = (k + 1) * it.frames by rw [Nat.add_mul, Nat.one_mul]] at h2
      obtain ⟨st, e1, e2, e3⟩ := ih (k + 1) s1 stF (by omega) h2
      refine ⟨fun j => if j = k then s else st j, by simp, ?_, ?_⟩
      · dsimp only
        rw [if_neg (by omega)]; exact e2
      · intro j hj1 hj2
        dsimp only
        rw [if_neg (by omega : ¬ j + 1 = k)]
        by_cases hjk : j = k
        · subst hjk
          rw [if_pos rfl, e1]; exact h1
        · rw [if_neg hjk]
          exact e3 j (by omega) hj2
    · have hlt' : ¬ k * it.frames < it.rowCount := fun h => hlt ((lt_blocks hB).2 h)
      rw [if_neg hlt'] at h
      cases h
      have hkb : k = blocks it.frames it.rowCount := by omega
      exact ⟨fun _ => s, rfl, rfl, fun j h1 h2 => by omega⟩

theorem applies {junk : V} {it : Iter V} {fn : Frame V → Frame V} (ci co : Nat) (outs : List (OutB V)) :
    ∀ (mid pr post : List (Frame V)),
    execAll (execAct junk it fn) ((List.range' pr.length mid.length).map Act.apply)
      ⟨ci, co, pr ++ mid ++ post, outs⟩ = some ⟨ci, co, pr ++ mid.map fn ++ post, outs⟩ := by
  intro mid
  induction mid with
  | nil => intro pr post; rfl
  | cons f mid ih =>
    intro pr post
    rw [List.length_cons, List.range'_succ, List.map_cons, execAll]
    have h1 : (pr ++ f :: mid ++ post)[pr.length]? = some f := by simp
    have h2 : execAct junk it fn (.apply pr.length) ⟨ci, co, pr ++ f :: mid ++ post, outs⟩ =
        some ⟨ci, co, (pr ++ [fn f]) ++ mid ++ post, outs⟩ := by
      unfold execAct
      dsimp only
      rw [h1]
      simp
    rw [h2, Option.bind_some]
    have := ih (pr ++ [fn f]) post
    rw [List.length_append, List.length_singleton] at this
    rw [this]
    simp

theorem apply_comm {junk : V} {it : Iter V} {fn : Frame V → Frame V} {i j : Nat} (h : i ≠ j)
    (s : Shared V) :
    (execAct junk it fn (.apply i) s).bind (execAct junk it fn (.apply j)) =
      (execAct junk it fn (.apply j) s).bind (execAct junk it fn (.apply i)) := by
  unfold execAct
  dsimp only
  cases hi : s.frames[i]? with
  | none =>
    cases hj : s.frames[j]? with
    | none => rfl
    | some g =>
      simp only [Option.bind_none, Option.bind_some, List.getElem?_set_ne (Ne.symm h), hi]
  | some f =>
    cases hj : s.frames[j]? with
    | none =>
      simp only [Option.bind_none, Option.bind_some, List.getElem?_set_ne h, hj]
    | some g =>
      simp only [Option.bind_some, List.getElem?_set_ne h, List.getElem?_set_ne (Ne.symm h), hi, hj]
      rw [List.set_comm _ _ h]

theorem flatten_first {T : Nat} (hT : 0 < T) {l : Nat → List Act} (h : ∀ w, w ≠ 0 → l w = []) :
    ((List.range T).map l).flatten = l 0 := by
  obtain ⟨t, rfl⟩ : ∃ t, T = t + 1 := ⟨T - 1, by omega⟩
  rw [List.range_succ_eq_map, List.map_cons, List.flatten_cons, List.map_map]
  rw [List.flatten_eq_nil_iff.2, List.append_nil]
  intro x hx
  obtain ⟨w, _, rfl⟩ := List.mem_map.1 hx
  exact h _ (by simp)

/-- The states between the barriers. -/
theorem segs_ok {junk : V} {it : Iter V} {fn : Frame V → Frame V} {T fuel : Nat} (hT : 0 < T)
    (hB : 0 < it.frames) {init : List (Frame V)} (hi : init.length = it.frames) {outs : List (OutB V)}
    {stF : LoopSt V} (h : forEachFrame junk it fn fuel 0 ⟨0, init, outs, []⟩ = some stF) :
    ∃ states : Nat → Shared V, states 0 = ⟨0, 0, init, outs⟩ ∧
      states (2 * blocks it.frames it.rowCount + 1) = ⟨stF.cur, stF.cur, stF.frames, stF.outs⟩ ∧
      SegsOk (execAct junk it fn) (segs it.frames it.rowCount T) T (2 * blocks it.frames it.rowCount)
        states := by
  obtain ⟨st, s1, s2, s3⟩ := chain hB fuel 0 _ _ (Nat.zero_le _) (by rw [Nat.zero_mul]; exact h)
  generalize hn : blocks it.frames it.rowCount = n at *
  generalize hc : cnt it.frames it.rowCount = c at *
  -- one block
  have hblock : ∀ k, k < n → ∃ ld, preload junk (st k).cur it.ins ((st k).frames.take (c k)) = some ld ∧
      saveOutputs (st k).cur (ld.map fn) it.outs (st k).outs = some (st (k + 1)).outs ∧
      (st (k + 1)).cur = (st k).cur + c k ∧
      (st (k + 1)).frames = ld.map fn ++ (st k).frames.drop (c k) := by
    intro k hk
    have := s3 k (Nat.zero_le _) hk
    unfold block at this
    obtain ⟨ld, h1, h2⟩ := Option.bind_eq_some_iff.1 this
    obtain ⟨os, h3, h4⟩ := Option.map_eq_some_iff.1 h2
    refine ⟨ld, h1, ?_, ?_, ?_⟩
    · rw [h3, ← h4]
    · rw [← h4]
    · rw [← h4]
  have hcB : ∀ k, c k ≤ it.frames := by
    intro k; rw [← hc]; unfold cnt; omega
  have hfl : ∀ k, k ≤ n → (st k).frames.length = it.frames := by
    intro k
    induction k with
    | zero => intro _; rw [s1]; exact hi
    | succ k ih =>
      intro hk
      obtain ⟨ld, h1, _, _, h4⟩ := hblock k (by omega)
      have hl := preload_length _ _ _ h1
      have := hcB k
      have := ih (by omega)
      rw [h4, List.length_append, List.length_map, hl, List.length_take, List.length_drop]
      omega
  let ld : Nat → List (Frame V) := fun k =>
    (preload junk (st k).cur it.ins ((st k).frames.take (c k))).getD []
  have hld : ∀ k, k < n → preload junk (st k).cur it.ins ((st k).frames.take (c k)) = some (ld k) ∧
      saveOutputs (st k).cur ((ld k).map fn) it.outs (st k).outs = some (st (k + 1)).outs ∧
      (st (k + 1)).cur = (st k).cur + c k ∧
      (st (k + 1)).frames = (ld k).map fn ++ (st k).frames.drop (c k) ∧ (ld k).length = c k := by
    intro k hk
    obtain ⟨l, h1, h2, h3, h4⟩ := hblock k hk
    have : ld k = l := by simp only [ld, h1, Option.getD_some]
    rw [this]
    refine ⟨h1, h2, h3, h4, ?_⟩
    rw [preload_length _ _ _ h1, List.length_take, hfl k (by omega)]
    have := hcB k
    omega
  -- the state before barrier `g`
  refine ⟨fun g =>
    if g = 0 then ⟨0, 0, init, outs⟩
    else if g % 2 = 0 then ⟨(st (g / 2)).cur, (st (g / 2 - 1)).cur, (st (g / 2)).frames, (st (g / 2 - 1)).outs⟩
    else if g / 2 < n then
      ⟨(st (g / 2)).cur + c (g / 2), (st (g / 2)).cur, ld (g / 2) ++ (st (g / 2)).frames.drop (c (g / 2)),
        (st (g / 2)).outs⟩
    else ⟨(st (g / 2)).cur, (st (g / 2)).cur, (st (g / 2)).frames, (st (g / 2)).outs⟩, by simp, ?_, ?_, ?_⟩
  · dsimp only
    rw [if_neg (by omega), if_neg (by omega), if_neg (by omega), show (2 * n + 1) / 2 = n by omega, s2]
  · intro g w v hw hv hwv a ha b hb s
    unfold segs at ha hb
    by_cases hg : g % 2 = 0
    · rw [if_pos hg] at ha hb
      by_cases hw0 : w = 0
      · rw [if_neg (by omega)] at hb
        simp at hb
      · rw [if_neg hw0] at ha
        simp at ha
    · rw [if_neg hg] at ha hb
      obtain ⟨i, hi1, rfl⟩ := List.mem_map.1 ha
      obtain ⟨j, hj1, rfl⟩ := List.mem_map.1 hb
      refine apply_comm ?_ s
      rintro rfl
      exact own_disjoint hwv hi1 hj1
  · intro g hg
    rcases Nat.mod_two_eq_zero_or_one g with hg2 | hg2
    · -- worker 0 saves and preloads
      obtain ⟨k, rfl⟩ : ∃ k, g = 2 * k := ⟨g / 2, by omega⟩
      have e2 : 2 * k / 2 = k := by omega
      have e4 : (2 * k + 1) / 2 = k := by omega
      rw [flatten_first hT (fun w hw => by unfold segs; rw [if_pos hg2, if_neg hw])]
      unfold segs
      rw [if_pos hg2, if_pos rfl, e2, hn, hc]
      rw [if_neg (by omega : ¬ 2 * k + 1 = 0), if_neg (by omega : ¬ (2 * k + 1) % 2 = 0), e4]
      -- after the save
      have hsave : execAll (execAct junk it fn) (if 2 * k = 0 then [] else [.save (c (k - 1))])
          (if 2 * k = 0 then ⟨0, 0, init, outs⟩ else if 2 * k % 2 = 0 then
            ⟨(st k).cur, (st (k - 1)).cur, (st k).frames, (st (k - 1)).outs⟩
            else if k < n then ⟨(st k).cur + c k, (st k).cur, ld k ++ (st k).frames.drop (c k), (st k).outs⟩
            else ⟨(st k).cur, (st k).cur, (st k).frames, (st k).outs⟩) =
          some ⟨(st k).cur, (st k).cur, (st k).frames, (st k).outs⟩ := by
        by_cases hk : k = 0
        · subst hk
          simp only [Nat.mul_zero, if_true, execAll, s1]
        · rw [if_neg (by omega), if_neg (by omega), if_pos hg2]
          obtain ⟨l1, l2, l3, l4, l5⟩ := hld (k - 1) (by omega)
          rw [show k - 1 + 1 = k by omega] at l2 l3 l4
          rw [execAll]; unfold execAct
          dsimp only
          have ht : (st k).frames.take (c (k - 1)) = (ld (k - 1)).map fn := by
            rw [l4, List.take_append_of_le_length (by rw [List.length_map]; omega),
              List.take_of_length_le (by rw [List.length_map]; omega)]
          rw [ht, l2]
          simp only [Option.map_some, Option.bind_some, execAll, Option.some.injEq, Shared.mk.injEq, and_true,
            true_and]
          exact l3.symm
      rw [execAll_append, hsave, Option.bind_some]
      by_cases hk : k < n
      · rw [if_pos hk, if_pos hk]
        obtain ⟨l1, _⟩ := hld k hk
        rw [execAll]; unfold execAct
        dsimp only
        rw [l1]
        rfl
      · rw [if_neg hk, if_neg hk]
        rfl
    · -- the workers apply `fn`
      obtain ⟨k, rfl⟩ : ∃ k, g = 2 * k + 1 := ⟨g / 2, by omega⟩
      have hk : k < n := by omega
      have e4 : (2 * k + 1) / 2 = k := by omega
      have e5 : (2 * k + 1 + 1) / 2 = k + 1 := by omega
      have hsegs : (List.range T).map (fun w => segs it.frames it.rowCount T w (2 * k + 1)) =
          ((List.range T).map (fun w => ownFrames it.frames T (c k) w)).map (List.map Act.apply) := by
        rw [List.map_map]
        apply List.map_congr_left
        intro w _
        unfold segs
        rw [if_neg (by omega), e4, hc]; rfl
      rw [hsegs, ← List.map_flatten, own_cover hT (hcB k)]
      rw [if_neg (by omega), if_neg (by omega), e4, if_pos hk, if_neg (by omega), if_pos (by omega), e5,
        show k + 1 - 1 = k by omega]
      obtain ⟨l1, l2, l3, l4, l5⟩ := hld k hk
      have := applies (junk := junk) (it := it) (fn := fn) ((st k).cur + c k) (st k).cur (st k).outs
        (ld k) [] ((st k).frames.drop (c k))
      simp only [List.length_nil, List.nil_append, l5] at this
      rw [List.range_eq_range', this, l3, l4]

end Verif.Frames
