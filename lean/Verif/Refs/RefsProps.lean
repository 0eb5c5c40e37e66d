import Mathlib.Data.List.Basic
import Verif.Refs.RefsModel

/-!
# Properties of reference counts (C144) and of permanent events (C145)
-/

namespace Verif.Refs

/-! ## Reference counts -/

/-- The references not yet released. -/
def held (s : State) : Nat := s.refs.countP fun p => p = .live || p = .loaded

/-- The deletions under way. -/
def deleting (s : State) : Nat := s.refs.countP fun p => p = .deleting

/-- The invariant. -/
structure Inv (s : State) : Prop where
  some_held : 0 < held s → s.count = held s ∧ deleting s = 0 ∧ s.deleted = 0
  none_held : held s = 0 → deleting s + s.deleted = 1

theorem countP_set (f : Phase → Bool) : ∀ (l : List Phase) (i : Nat) (p q : Phase), l[i]? = some p →
    (l.set i q).countP f + (if f p then 1 else 0) = l.countP f + (if f q then 1 else 0) := by
  intro l
  induction l with
  | nil => intro i p q h; simp at h
  | cons a l ih =>
    intro i p q h
    cases i with
    | zero =>
      obtain rfl : a = p := by simpa using h
      rw [List.set_cons_zero, List.countP_cons, List.countP_cons]
      omega
    | succ i =>
      rw [List.getElem?_cons_succ] at h
      rw [List.set_cons_succ, List.countP_cons, List.countP_cons]
      have := ih i p q h
      omega

theorem held_pos {s : State} {i : Nat} {p : Phase} (h : s.refs[i]? = some p) (hp : p = .live ∨ p = .loaded) : 0 < held s := by
  unfold held
  rw [List.countP_pos_iff]
  exact ⟨p, List.mem_of_getElem? h, by rcases hp with rfl | rfl <;> rfl⟩

theorem inv_step {s s' : State} {a : Step} (h : Inv s) (hs : step s a = some s') : Inv s' := by
  have hH := h.some_held
  have hN := h.none_held
  have key : ∀ (i : Nat) (p q : Phase), s.refs[i]? = some p →
      (s.refs.set i q).countP (fun p => p = .live || p = .loaded) + (if p = .live ∨ p = .loaded then 1 else 0) =
        held s + (if q = .live ∨ q = .loaded then 1 else 0) ∧
      (s.refs.set i q).countP (fun p => p = .deleting) + (if p = .deleting then 1 else 0) = deleting s + (if q = .deleting then 1 else 0) := by
    intro i p q hp
    have h1 := countP_set (fun p => p = .live || p = .loaded) s.refs i p q hp
    have h2 := countP_set (fun p => p = .deleting) s.refs i p q hp
    simp only [Bool.or_eq_true, decide_eq_true_iff] at h1 h2
    exact ⟨h1, h2⟩
  unfold step at hs
  split at hs <;> split at hs <;> try (cases hs; done)
  · -- copy
    rename_i i hl
    obtain rfl := Option.some.inj hs
    have hp := held_pos hl (Or.inl rfl)
    obtain ⟨c1, c2, c3⟩ := hH hp
    have e1 : held (copy s) = held s + 1 := by unfold held copy; simp [List.countP_append]
    have e2 : deleting (copy s) = deleting s := by unfold deleting copy; simp [List.countP_append]
    constructor
    · intro _
      rw [e1, e2]
      exact ⟨by unfold copy; simp only; omega, c2, c3⟩
    · intro hc; omega
  · -- decrement
    rename_i i hl
    obtain rfl := Option.some.inj hs
    have hp := held_pos hl (Or.inl rfl)
    obtain ⟨c1, c2, c3⟩ := hH hp
    obtain ⟨k1, k2⟩ := key i .live (if s.count ≠ 1 then .gone else .deleting) hl
    constructor
    · intro hpos
      unfold held deleting fetchSub at *
      simp only at *
      by_cases hc : s.count = 1
      · rw [if_neg (by simpa using hc)] at k1 k2 hpos ⊢
        simp at k1 k2
        omega
      · rw [if_pos hc] at k1 k2 hpos ⊢
        simp at k1 k2
        omega
    · intro hz
      unfold held deleting fetchSub at *
      simp only at *
      by_cases hc : s.count = 1
      · rw [if_neg (by simpa using hc)] at k1 k2 hz ⊢
        simp at k1 k2
        omega
      · rw [if_pos hc] at k1 k2 hz ⊢
        simp at k1 k2
        omega
  · -- load
    rename_i i hl
    obtain rfl := Option.some.inj hs
    have hp := held_pos hl (Or.inl rfl)
    obtain ⟨c1, c2, c3⟩ := hH hp
    obtain ⟨k1, k2⟩ := key i .live (if s.count ≠ 1 then .loaded else .deleting) hl
    constructor
    · intro hpos
      unfold held deleting load at *
      simp only at *
      by_cases hc : s.count = 1
      · rw [if_neg (by simpa using hc)] at k1 k2 hpos ⊢
        simp at k1 k2
        omega
      · rw [if_pos hc] at k1 k2 hpos ⊢
        simp at k1 k2
        omega
    · intro hz
      unfold held deleting load at *
      simp only at *
      by_cases hc : s.count = 1
      · rw [if_neg (by simpa using hc)] at k1 k2 hz ⊢
        simp at k1 k2
        omega
      · rw [if_pos hc] at k1 k2 hz ⊢
        simp at k1 k2
        omega
  · -- subtract
    rename_i i hl
    obtain rfl := Option.some.inj hs
    have hp := held_pos hl (Or.inr rfl)
    obtain ⟨c1, c2, c3⟩ := hH hp
    obtain ⟨k1, k2⟩ := key i .loaded (if s.count ≠ 1 then .gone else .deleting) hl
    constructor
    · intro hpos
      unfold held deleting fetchSub at *
      simp only at *
      by_cases hc : s.count = 1
      · rw [if_neg (by simpa using hc)] at k1 k2 hpos ⊢
        simp at k1 k2
        omega
      · rw [if_pos hc] at k1 k2 hpos ⊢
        simp at k1 k2
        omega
    · intro hz
      unfold held deleting fetchSub at *
      simp only at *
      by_cases hc : s.count = 1
      · rw [if_neg (by simpa using hc)] at k1 k2 hz ⊢
        simp at k1 k2
        omega
      · rw [if_pos hc] at k1 k2 hz ⊢
        simp at k1 k2
        omega
  · -- delete
    rename_i i hl
    obtain rfl := Option.some.inj hs
    obtain ⟨k1, k2⟩ := key i .deleting .gone hl
    have hd : 0 < deleting s := by
      unfold deleting
      rw [List.countP_pos_iff]
      exact ⟨_, List.mem_of_getElem? hl, rfl⟩
    constructor
    · intro hpos
      unfold held deleting delete at *
      simp only at *
      simp at k1 k2
      omega
    · intro hz
      unfold held deleting delete at *
      simp only at *
      simp at k1 k2
      omega

theorem inv_run : ∀ (as : List Step) {s s' : State}, Inv s → run s as = some s' → Inv s' := by
  intro as
  induction as with
  | nil => intro s s' h hr; obtain rfl := Option.some.inj hr; exact h
  | cons a as ih =>
    intro s s' h hr
    rw [run] at hr
    cases hs : step s a with
    | none => rw [hs] at hr; cases hr
    | some t => rw [hs] at hr; exact ih (inv_step h hs) hr

theorem inv_init : Inv init := by
  constructor
  · intro _; decide
  · intro h; exact absurd h (by decide)

/-- In every interleaving: the object is deleted at most once; as long as some reference is held, it is not deleted or being deleted, so
that no reference and no operation on the count ever sees a deleted object; and once all references are released it has been deleted. -/
theorem refcount (as : List Step) {s : State} (h : run init as = some s) :
    s.deleted ≤ 1 ∧
    (∀ p ∈ s.refs, p = .live ∨ p = .loaded → s.deleted = 0 ∧ Phase.deleting ∉ s.refs) ∧
    ((∀ p ∈ s.refs, p = .gone) → s.deleted = 1) := by
  have hI := inv_run as inv_init h
  refine ⟨?_, ?_, ?_⟩
  · rcases Nat.eq_zero_or_pos (held s) with h0 | h0
    · have := hI.none_held h0; omega
    · have := hI.some_held h0; omega
  · intro p hp hlive
    obtain ⟨i, hi⟩ := List.mem_iff_getElem?.1 hp
    have hd := hI.some_held (held_pos hi hlive)
    refine ⟨hd.2.2, ?_⟩
    intro hc
    have : 0 < deleting s := by
      unfold deleting
      rw [List.countP_pos_iff]
      exact ⟨_, hc, rfl⟩
    omega
  · intro hgone
    have h0 : held s = 0 := by
      unfold held
      rw [List.countP_eq_zero]
      intro p hp
      rw [hgone p hp]
      decide
    have h1 : deleting s = 0 := by
      unfold deleting
      rw [List.countP_eq_zero]
      intro p hp
      rw [hgone p hp]
      decide
    have := hI.none_held h0
    omega

/-- The owner of a reference is never stuck, and can release it in at most two steps: every reference that is not released has a next
step. -/
theorem refcount_progress (s : State) (i : Nat) (p : Phase) (h : s.refs[i]? = some p) (hp : p ≠ .gone) :
    ∃ a s', step s a = some s' ∧ (s'.refs[i]? = some .gone ∨ (p = .live ∧ s'.refs[i]? = some .deleting) ∨ (p = .loaded ∧ s'.refs[i]? = some .deleting)) := by
  have hlt := (List.getElem?_eq_some_iff.1 h).1
  cases p with
  | gone => exact absurd rfl hp
  | live =>
    refine ⟨.decrement i, _, if_pos h, ?_⟩
    unfold fetchSub
    simp only [List.getElem?_set_self hlt]
    split <;> simp
  | loaded =>
    refine ⟨.subtract i, _, if_pos h, ?_⟩
    unfold fetchSub
    simp only [List.getElem?_set_self hlt]
    split <;> simp
  | deleting =>
    refine ⟨.delete i, _, if_pos h, Or.inl ?_⟩
    unfold delete
    simp only [List.getElem?_set_self hlt]

/-- Two references released at the same time, one of them skewed: the one that loads 2 comes last and deletes the object. -/
example : (run init [.copy 0, .load 0, .decrement 1, .subtract 0]).map (·.refs) = some [.deleting, .gone] ∧
    (run init [.copy 0, .load 0, .decrement 1, .subtract 0, .delete 0]).map (fun s => (s.refs, s.deleted)) = some ([.gone, .gone], 1) ∧
    (run init [.load 0, .delete 0]).map (fun s => (s.refs, s.deleted)) = some ([.gone], 1) :=
  ⟨by decide, by decide, by decide⟩

/-! ## Permanent events -/

/-- The invariant. -/
structure EInv (e : Event) : Prop where
  before : e.once = false → e.times = 0 ∧ (∀ c ∈ e.calls, c = .start)
  after : e.once = true → e.times + e.calls.countP (fun c => c = .notify) = 1
  set : e.notified = decide (0 < e.times)

theorem countC_set (f : Call → Bool) : ∀ (l : List Call) (i : Nat) (p q : Call), l[i]? = some p →
    (l.set i q).countP f + (if f p then 1 else 0) = l.countP f + (if f q then 1 else 0) := by
  intro l
  induction l with
  | nil => intro i p q h; simp at h
  | cons a l ih =>
    intro i p q h
    cases i with
    | zero =>
      obtain rfl : a = p := by simpa using h
      rw [List.set_cons_zero, List.countP_cons, List.countP_cons]
      omega
    | succ i =>
      rw [List.getElem?_cons_succ] at h
      rw [List.set_cons_succ, List.countP_cons, List.countP_cons]
      have := ih i p q h
      omega

theorem einv_step {e e' : Event} {i : Nat} (h : EInv e) (hs : e.step i = some e') : EInv e' := by
  unfold Event.step at hs
  split at hs
  · rename_i hc
    obtain rfl := Option.some.inj hs
    have k := countC_set (fun c => c = .notify) e.calls i .start (if !e.once then .notify else .returned) hc
    refine ⟨(fun ho => nomatch ho), fun _ => ?_, h.set⟩
    simp only
    cases ho : e.once with
    | false =>
      obtain ⟨h1, h2⟩ := h.before ho
      have h3 : e.calls.countP (fun c => c = .notify) = 0 := by
        rw [List.countP_eq_zero]
        intro c hc
        rw [h2 c hc]
        decide
      rw [ho] at k
      simp at k ⊢
      omega
    | true =>
      have h1 := h.after ho
      rw [ho] at k
      simp at k h1 ⊢
      omega
  · rename_i hc
    obtain rfl := Option.some.inj hs
    have k := countC_set (fun c => c = .notify) e.calls i .notify .returned hc
    refine ⟨fun ho => ?_, fun ho => ?_, by simp⟩
    · have := (h.before ho).2 .notify (List.mem_of_getElem? hc)
      cases this
    · have := h.after ho
      simp at k this ⊢
      omega
  · cases hs

theorem einv_run : ∀ (is : List Nat) {e e' : Event}, EInv e → e.run is = some e' → EInv e' := by
  intro is
  induction is with
  | nil => intro e e' h hr; obtain rfl := Option.some.inj hr; exact h
  | cons i is ih =>
    intro e e' h hr
    rw [Event.run] at hr
    cases hs : e.step i with
    | none => rw [hs] at hr; cases hr
    | some t => rw [hs] at hr; exact ih (einv_step h hs) hr

theorem einv_init (n : Nat) : EInv (Event.init n) :=
  ⟨fun _ => ⟨rfl, fun _ hc => List.eq_of_mem_replicate hc⟩, (fun h => nomatch h), rfl⟩

/-- In every interleaving of any number of calls of `Notify`, the notification is notified at most once; once all calls have returned, and
there was at least one, it is set.

Missing: that it is set once one of the calls has returned, which fails: `event_return_counterexample`. -/
theorem event_partial (n : Nat) (is : List Nat) {e : Event} (h : (Event.init n).run is = some e) :
    e.times ≤ 1 ∧ (Call.returned ∈ e.calls → Call.notify ∉ e.calls → e.notified = true) ∧ (e.notified = true → is ≠ []) := by
  have hI := einv_run is (einv_init n) h
  refine ⟨?_, ?_, ?_⟩
  · cases ho : e.once with
    | false => rw [(hI.before ho).1]; omega
    | true => have := hI.after ho; omega
  · intro hr hn
    cases ho : e.once with
    | false => have := (hI.before ho).2 _ hr; cases this
    | true =>
      have h1 := hI.after ho
      have h2 : e.calls.countP (fun c => c = .notify) = 0 := by
        rw [List.countP_eq_zero]
        intro c hc hcn
        rw [decide_eq_true_iff] at hcn
        rw [hcn] at hc
        exact hn hc
      rw [hI.set, decide_eq_true_iff]
      omega
  · rintro hn rfl
    obtain rfl := Option.some.inj h
    cases hn

/-- A call of `Notify` may return before the event is set: the other call has passed `test_and_set` but not yet notified. -/
theorem event_return_counterexample : ∃ e, (Event.init 2).run [0, 1] = some e ∧ e.calls = [.notify, .returned] ∧ e.notified = false :=
  ⟨⟨true, false, 0, [.notify, .returned]⟩, rfl, rfl, rfl⟩

example : ((Event.init 3).run [1, 0, 1, 2]).map (fun e => (e.notified, e.times, e.calls)) =
    some (true, 1, [.returned, .returned, .returned]) := by decide

end Verif.Refs
