import Verif.Conc.CancelLemmas

/-!
# C32: cancellation contexts

All theorems are about every schedule: any number of concurrent `Cancel`, `Subscribe`, destructor, `Detach` and
`GetStatus` calls, interleaved in any way.  "Cancelled" means that `GetStatus` returns a non-OK status.
-/

namespace Verif.Conc

/-- `s` is reachable. -/
def Reachable (s : St) : Prop := ∃ acts, runFrom St.init acts = some s

/-- `s'` is reachable from `s`. -/
def Later (s s' : St) : Prop := ∃ acts, runFrom s acts = some s'

/-- A `Cancel` call is in progress. -/
def Cancelling (s : St) : Prop :=
  ∃ pc ∈ s.ops, match pc with
    | .cancel0 _ | .cancel1 _ | .cancel2 _ _ | .cancel3 _ _ => True
    | _ => False

/-! ## Induction over schedules -/

theorem core_init : Core St.init [] [] where
  ops := rfl
  alive := rfl
  flag := rfl
  empty := fun _ => rfl
  head := rfl
  dl := trivial
  own := fun _ => rfl
  pend := fun j => ⟨by simp [X, St.init, runs], by simp [X, St.init, runs]⟩
  hnd := by simp [St.init]
  hndL := by simp [St.init]
  runs := by simp [St.init, runs]
  opok := by simp
  del2 := by simp
  sub := by simp [St.init]
  delRet := by simp [St.init]
  cret := by simp [St.init]
  stat := by simp [St.init]

/-- What remains of a state after the context is destroyed. -/
def AfterOf (s0 s : St) : Prop := s = s0 ∨ (s = { s0 with heap := fun _ => none, dead := true } ∧ s0.ops = [])

theorem run_ind {Q : St → List Nat → List G → Prop}
    (hstep : ∀ s L gs s' L' gs', Core s L gs → Core s' L' gs' → Mono s L gs s' L' gs' → Q s L gs → Q s' L' gs') :
    ∀ (acts : List Act) {s : St} {L : List Nat} {gs : List G}, Core s L gs → Q s L gs →
      ∃ s', runFrom s acts = some s' ∧ ∃ s0 L' gs', Core s0 L' gs' ∧ Q s0 L' gs' ∧ AfterOf s0 s' := by
  intro acts
  induction acts with
  | nil => intro s L gs c q; exact ⟨s, rfl, s, L, gs, c, q, Or.inl rfl⟩
  | cons a acts ih =>
    intro s L gs c q
    obtain ⟨s1, h1, h2⟩ := act_core c a
    rw [runFrom, h1]
    simp only [Option.bind_eq_bind, Option.bind_some]
    rcases h2 with ⟨L', gs', c', m⟩ | ⟨h2, h3⟩
    · exact ih c' (hstep _ _ _ _ _ _ c c' m q)
    · have hdead : ∀ (as : List Act), runFrom s1 as = some s1 := by
        intro as
        induction as with
        | nil => rfl
        | cons b bs ihb =>
          rw [runFrom, act.eq_def, if_pos (by rw [h2])]
          simpa using ihb
      rw [hdead]
      exact ⟨s1, rfl, s, L, gs, c, q, Or.inr ⟨h2, h3⟩⟩

theorem later_ind {Q : St → List Nat → List G → Prop}
    (hstep : ∀ s L gs s' L' gs', Core s L gs → Core s' L' gs' → Mono s L gs s' L' gs' → Q s L gs → Q s' L' gs')
    {s1 s2 : St} (h1 : Reachable s1) (h2 : Later s1 s2)
    (hq : ∀ s0 L gs, Core s0 L gs → AfterOf s0 s1 → Q s0 L gs) :
    ∃ s0 L gs, Core s0 L gs ∧ Q s0 L gs ∧ AfterOf s0 s2 := by
  obtain ⟨acts1, h1⟩ := h1
  obtain ⟨acts2, h2⟩ := h2
  obtain ⟨s', e1, s0, L, gs, c, _, ha⟩ := run_ind (Q := fun _ _ _ => True) (fun _ _ _ _ _ _ _ _ _ _ => trivial)
    acts1 core_init trivial
  rw [h1] at e1
  obtain rfl := Option.some.inj e1
  have q := hq s0 L gs c ha
  rcases ha with rfl | ⟨ha, hops⟩
  · obtain ⟨s'', e2, s0', L', gs', c', q', ha'⟩ := run_ind hstep acts2 c q
    rw [h2] at e2
    obtain rfl := Option.some.inj e2
    exact ⟨s0', L', gs', c', q', ha'⟩
  · have hdead : ∀ (as : List Act), runFrom s1 as = some s1 := by
      intro as
      induction as with
      | nil => rfl
      | cons b bs ihb =>
        rw [runFrom, act.eq_def, if_pos (by rw [ha])]
        simpa using ihb
    rw [hdead] at h2
    obtain rfl := Option.some.inj h2
    exact ⟨s0, L, gs, c, q, Or.inr ⟨ha, hops⟩⟩

theorem reach_core {s : St} (h : Reachable s) : ∃ s0 L gs, Core s0 L gs ∧ AfterOf s0 s := by
  obtain ⟨acts, h⟩ := h
  obtain ⟨s', e1, s0, L, gs, c, _, ha⟩ := run_ind (Q := fun _ _ _ => True) (fun _ _ _ _ _ _ _ _ _ _ => trivial)
    acts core_init trivial
  rw [h] at e1
  obtain rfl := Option.some.inj e1
  exact ⟨s0, L, gs, c, ha⟩

theorem after_log {s0 s : St} (h : AfterOf s0 s) : s.log = s0.log ∧ s.status = s0.status ∧ s.ops = s0.ops := by
  rcases h with rfl | ⟨rfl, h⟩
  · exact ⟨rfl, rfl, rfl⟩
  · exact ⟨rfl, rfl, rfl⟩

theorem count_runs {i : Nat} : ∀ {es : List Event}, (runs es).count i = es.count (.run i) := by
  intro es
  induction es with
  | nil => rfl
  | cons e es ih =>
    rw [List.count_cons]
    cases e with
    | run j =>
      rw [runs, List.count_cons, ih]
      congr 1
      by_cases h : j = i
      · subst h; simp
      · simp [h]
    | _ => simp [runs, ih]

/-! ## The theorems -/

/-- Memory safety: no schedule reads, writes or frees a node which is not allocated or fails the `DCHECK`, and
the destruction of the context leaves no node allocated. -/
theorem cancel_safe (acts : List Act) :
    ∃ s, runFrom St.init acts = some s ∧ (s.dead = true → ∀ i, (s.heap i).isNone) := by
  obtain ⟨s', e1, s0, L, gs, c, _, ha⟩ := run_ind (Q := fun _ _ _ => True) (fun _ _ _ _ _ _ _ _ _ _ => trivial)
    acts core_init trivial
  refine ⟨s', e1, fun hd i => ?_⟩
  rcases ha with rfl | ⟨rfl, _⟩
  · rw [c.alive] at hd; cases hd
  · rfl

/-- When nothing is in progress, the allocated nodes are exactly those which will be freed: none is leaked. -/
theorem cancel_no_leak {s : St} (h : Reachable s) (ho : s.ops = []) (hh : s.handles = []) :
    ∃ s', act s .destroyContext = some s' ∧ ∀ i, (s'.heap i).isNone := by
  obtain ⟨s0, L, gs, c, ha⟩ := reach_core h
  rcases ha with rfl | ⟨rfl, _⟩
  · obtain ⟨s', h1, h2⟩ := act_core c .destroyContext
    refine ⟨s', h1, ?_⟩
    have hd : s'.dead = true := by
      unfold act at h1
      rw [if_neg (by rw [c.alive]; simp)] at h1
      dsimp only at h1
      rw [if_pos (by rw [ho, hh]; rfl)] at h1
      cases hf : freeAll s.heap s.next s.head with
      | none => rw [hf] at h1; cases h1
      | some x => rw [hf] at h1; cases h1; rfl
    rcases h2 with ⟨_, _, c', _⟩ | ⟨rfl, _⟩
    · rw [c'.alive] at hd; cases hd
    · intro i; rfl
  · exact ⟨_, rfl, fun _ => rfl⟩

/-- The status is set at most once, to the status of one of the `Cancel` calls, which is not OK, and then never
changes. -/
theorem cancel_status_once {s1 s2 : St} (h1 : Reachable s1) (h2 : Later s1 s2) {x : Nat} (hx : s1.status = some x) :
    s2.status = some x ∧ Event.cancelCall (some x) ∈ s1.log := by
  constructor
  · obtain ⟨s0, L, gs, c, q, ha⟩ := later_ind (Q := fun s _ _ => s.status = some x)
      (fun _ _ _ _ _ _ _ _ m q => m.status x q) h1 h2
      (fun s0 L gs c ha => by rw [← (after_log ha).2.1]; exact hx)
    rw [(after_log ha).2.1]
    exact q
  · obtain ⟨s0, L, gs, c, ha⟩ := reach_core h1
    obtain ⟨e1, e2, _⟩ := after_log ha
    rw [e1]
    exact c.stat x (by rw [← e2]; exact hx)

/-- After a `Cancel` with a non-OK status returned, the context is cancelled. -/
theorem cancel_effective {s : St} (h : Reachable s) {x : Nat} (hx : Event.cancelRet (some x) ∈ s.log) :
    s.status ≠ none := by
  obtain ⟨s0, L, gs, c, ha⟩ := reach_core h
  obtain ⟨e1, e2, _⟩ := after_log ha
  have := c.cret x (by rw [← e1]; exact hx)
  rw [c.flag] at this
  rw [e2]
  intro hc
  rw [hc] at this
  cases this

/-- No callback runs twice, and none runs unless the context is cancelled. -/
theorem callback_at_most_once {s : St} (h : Reachable s) (i : Nat) :
    s.log.count (.run i) ≤ 1 ∧ (Event.run i ∈ s.log → s.status ≠ none) := by
  obtain ⟨s0, L, gs, c, ha⟩ := reach_core h
  obtain ⟨e1, e2, _⟩ := after_log ha
  rw [e1, e2]
  constructor
  · have := (c.pend i).1
    unfold X at this
    rw [count_runs] at this
    omega
  · intro hi hc
    rw [← mem_runs] at hi
    have := c.runs (fun hn => by rw [hn] at hi; cases hi)
    rw [c.flag, hc] at this
    cases this

/-- The callback of a subscription which was destroyed before the cancellation never runs. -/
theorem unsubscribed_never_runs {s1 s2 : St} (h1 : Reachable s1) (h2 : Later s1 s2) (hs : s1.status = none)
    {i : Nat} (hi : Event.delRet i ∈ s1.log) : Event.run i ∉ s2.log := by
  obtain ⟨s0, L, gs, c, q, ha⟩ := later_ind (Q := fun s L gs => i < s.next ∧ X s L gs i = 0)
    (fun s L gs s' L' gs' _ _ m q => by
      have a := m.next
      have b := m.x i q.1
      exact ⟨by omega, by omega⟩) h1 h2
    (fun s0 L gs c ha => by
      obtain ⟨e1, e2, _⟩ := after_log ha
      rcases c.delRet i (by rw [← e1]; exact hi) with h | h
      · rw [c.flag, ← e2, hs] at h; cases h
      · exact h)
  rw [(after_log ha).1, ← mem_runs, ← List.count_eq_zero]
  have := q.2
  unfold X at this
  omega

/-- The callback of a subscription made before the cancellation, which is not being destroyed, runs exactly once,
and no later than when all `Cancel` calls returned. -/
theorem subscribed_runs_once {s1 s2 : St} (h1 : Reachable s1) (h2 : Later s1 s2) (hs : s1.status ≠ none)
    {i : Nat} (hi : Event.subRet i ∈ s1.log) (hd : Event.delCall i ∉ s1.log) (hc : ¬Cancelling s2) :
    s2.log.count (.run i) = 1 := by
  obtain ⟨s0, L, gs, c, q, ha⟩ := later_ind
    (Q := fun s L gs => s.flag = true ∧ (i ∈ runs s.log ∨ ∃ g ∈ gs, IsTrav g.1 ∧ i ∈ pendOf g))
    (fun s L gs s' L' gs' c c' m q => by
      refine ⟨flag_mono m.status c.flag c'.flag q.1, ?_⟩
      rcases q.2 with h | h
      · exact Or.inl (m.runs i h)
      · exact m.trav q.1 i h) h1 h2
    (fun s0 L gs c ha => by
      obtain ⟨e1, e2, _⟩ := after_log ha
      have hf : s0.flag = true := by
        rw [c.flag, ← e2]
        cases h : s1.status with
        | none => exact absurd h hs
        | some _ => rfl
      refine ⟨hf, ?_⟩
      rcases c.sub i (by rw [← e1]; exact hi) with h | h | h | h
      · exact Or.inl h
      · rw [c.empty hf] at h; cases h
      · exact Or.inr h
      · exact absurd (by rw [e1]; exact h) hd)
  obtain ⟨e1, e2, e3⟩ := after_log ha
  have hr : i ∈ runs s0.log := by
    rcases q.2 with h | ⟨g, h1, h2, _⟩
    · exact h
    · exfalso
      refine hc ⟨g.1, by rw [e3, c.ops]; exact List.mem_map_of_mem h1, ?_⟩
      obtain ⟨pc, r⟩ := g
      cases pc <;> simp_all [IsTrav]
  rw [e1]
  have a := List.count_pos_iff.2 hr
  have b := (c.pend i).1
  unfold X at b
  rw [← count_runs]
  omega

/-- A `Subscribe` which returns after the cancellation has run its callback, once. -/
theorem late_subscribe_runs {s1 s2 : St} (h1 : Reachable s1) (h2 : Later s1 s2) (hs : s1.status ≠ none)
    {i : Nat} (hi : Event.subRet i ∉ s1.log) (hi2 : Event.subRet i ∈ s2.log) : s2.log.count (.run i) = 1 := by
  obtain ⟨s0, L, gs, c, q, ha⟩ := later_ind
    (Q := fun s L gs => s.flag = true ∧ (Event.subRet i ∈ s.log → i ∈ runs s.log))
    (fun s L gs s' L' gs' c c' m q => by
      refine ⟨flag_mono m.status c.flag c'.flag q.1, fun h => ?_⟩
      rcases m.sub q.1 i h with h | h
      · exact m.runs i (q.2 h)
      · exact h) h1 h2
    (fun s0 L gs c ha => by
      obtain ⟨e1, e2, _⟩ := after_log ha
      have hf : s0.flag = true := by
        rw [c.flag, ← e2]
        cases h : s1.status with
        | none => exact absurd h hs
        | some _ => rfl
      exact ⟨hf, fun h => absurd (by rw [e1]; exact h) hi⟩)
  obtain ⟨e1, e2, e3⟩ := after_log ha
  have hr := q.2 (by rw [← e1]; exact hi2)
  rw [e1]
  have a := List.count_pos_iff.2 hr
  have b := (c.pend i).1
  unfold X at b
  rw [← count_runs]
  omega

/-- No operation gets stuck: from every reachable state, letting the operations in progress continue finishes all
of them. -/
theorem operations_complete {s : St} (h : Reachable s) :
    ∃ n s', runFrom s (List.replicate n (.advance 0 false)) = some s' ∧ s'.ops = [] := by
  obtain ⟨s0, L, gs, c, ha⟩ := reach_core h
  rcases ha with rfl | ⟨rfl, hops⟩
  · clear h
    generalize hn : W L gs = n
    induction n using Nat.strongRecOn generalizing s L gs with
    | ind n ih =>
      by_cases he : s.ops = []
      · exact ⟨0, s, rfl, he⟩
      · obtain ⟨s', h1, L', gs', c', _, hw⟩ := advance_core c 0 false
        have := hw (by cases h : s.ops with
          | nil => exact absurd h he
          | cons _ _ => simp)
        obtain ⟨m, s'', h2, h3⟩ := ih (W L' gs') (by omega) L' gs' c' rfl
        refine ⟨m + 1, s'', ?_, h3⟩
        rw [List.replicate_succ, runFrom]
        unfold act
        rw [if_neg (by rw [c.alive]; simp)]
        dsimp only
        rw [h1]
        exact h2
  · exact ⟨0, _, rfl, hops⟩

/-! ## Examples -/

/-- Three subscriptions, the second is destroyed and the third detached, then two concurrent `Cancel` calls, then
one more `Subscribe`. -/
def exActs1 : List Act :=
  [.startSubscribe, .startSubscribe, .startSubscribe, .advance 0 false, .advance 1 false, .advance 2 false,
    .advance 0 false, .advance 0 false, .advance 0 false,
    .startDestroy 1, .advance 0 false, .advance 0 false, .advance 0 false, .detach 2]

def exActs2 : List Act :=
  [.startCancel (some 7), .startCancel (some 8), .advance 0 false, .advance 1 false, .advance 0 false]

def exActs3 : List Act :=
  [.startSubscribe, .advance 1 false, .advance 1 false, .advance 0 false, .advance 0 false, .advance 0 false,
    .advance 0 false, .advance 0 false, .advance 0 true, .advance 0 false, .advance 0 false]

/-- Before the cancellation: subscription 1 destroyed, 0 and 2 made, nothing run. -/
example : (runFrom St.init exActs1).map (fun s => (s.status, s.log.contains (.delRet 1), s.log.contains (.subRet 0),
    s.ops.length)) = some (none, true, true, 0) := by decide +kernel

/-- The first `Cancel` is in effect, callbacks not yet run. -/
example : (runFrom St.init (exActs1 ++ exActs2)).map (fun s => (s.status, s.log.contains (.run 0), s.log.contains (.delCall 0),
    s.log.contains (.subRet 3), s.ops.length)) = some (some 7, false, false, false, 2) := by decide +kernel

/-- Afterwards: 0, 2 and 3 have run, 1 has not. -/
example : (runFrom St.init (exActs1 ++ exActs2 ++ exActs3)).map (fun s =>
    (s.status, [0, 1, 2, 3].map (fun i => s.log.count (.run i)), s.log.contains (.subRet 3), s.ops.length)) =
    some (some 7, [1, 0, 1, 1], true, 0) := by decide +kernel

/-- A destructor which started before the cancellation and finishes after it: the callback runs once. -/
example : (runFrom St.init [.startSubscribe, .advance 0 false, .advance 0 false, .startCancel (some 7), .advance 0 false,
    .startDestroy 0, .advance 1 false, .advance 0 false, .advance 1 false, .advance 0 false, .advance 0 false,
    .advance 0 false]).map (fun s => (s.log.count (.run 0), s.ops.length)) = some (1, 0) := by decide +kernel

end Verif.Conc
