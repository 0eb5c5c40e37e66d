import Verif.Conc.ExecModel
import Mathlib.Tactic.ByContra
import Mathlib.Data.List.Nodup

set_option linter.unusedSimpArgs false

/-! # Properties of the thread safe executors (C35) -/

namespace Verif.Conc.Exec

/-- States reached by any schedule of any number of evaluations. -/
def Reachable {σ : Type} (w : Wrapper σ) (f : Nat → Nat) (reentrant : Bool) (s : St σ) : Prop :=
  ∃ acts, s = runFrom w f reentrant (St.start w) acts

/-- No two evaluations in progress use the same executor. -/
def Exclusive {σ : Type} (s : St σ) : Prop := (s.ops.filterMap Pc.holds).Nodup

/-! ## Helper lemmas -/

theorem act_cases {σ : Type} {w : Wrapper σ} {f : Nat → Nat} {re : Bool} {s : St σ} {P : St σ → Prop} (a : Act)
    (hsame : P s)
    (hcall : ∀ t x, (re = true ∨ ∀ pc ∈ s.ops, pc.thread ≠ t) → P { s with ops := s.ops ++ [.start t x] })
    (hstep : ∀ A pc B ok, s.ops = A ++ pc :: B →
      P { (stepPc w f ok s pc).1 with ops := A ++ ((stepPc w f ok s pc).2.toList ++ B) }) : P (act w f re s a) := by
  cases a with
  | call t x =>
    rw [act]
    split
    · exact hsame
    · next h =>
      apply hcall
      cases re with
      | true => exact Or.inl rfl
      | false =>
        refine Or.inr (fun pc hpc he => h ?_)
        simp only [Bool.not_false, Bool.true_and, List.any_eq_true]
        exact ⟨pc, hpc, by simp [he]⟩
  | advance k ok =>
    rw [act]
    cases hk : s.ops[k]? with
    | none => exact hsame
    | some pc =>
      dsimp only
      obtain ⟨hlt, hget⟩ := List.getElem?_eq_some_iff.1 hk
      have hsplit : s.ops = s.ops.take k ++ pc :: s.ops.drop (k + 1) := by
        rw [← hget, ← List.drop_eq_getElem_cons hlt, List.take_append_drop]
      have h := hstep _ _ _ ok hsplit
      generalize stepPc w f ok s pc = r at h ⊢
      obtain ⟨s', o⟩ := r
      cases o with
      | some pc' =>
        dsimp only
        rw [List.set_eq_take_append_cons_drop, if_pos hlt]
        exact h
      | none =>
        dsimp only
        rw [List.eraseIdx_eq_take_drop_succ]
        exact h

theorem run_induct {σ : Type} {w : Wrapper σ} {f : Nat → Nat} {re : Bool} {P : St σ → Prop}
    (h0 : P (St.start w)) (hs : ∀ s a, P s → P (act w f re s a)) {s : St σ} (h : Reachable w f re s) : P s := by
  obtain ⟨acts, rfl⟩ := h
  have : ∀ (acts : List Act) (s : St σ), P s → P (runFrom w f re s acts) := by
    intro acts
    induction acts with
    | nil => intro s h; exact h
    | cons a as ih => intro s h; exact ih _ (hs s a h)
  exact this acts _ h0

/-- The part of the invariant which is common to all wrappers. -/
structure Data {σ : Type} (f : Nat → Nat) (s : St σ) : Prop where
  written : ∀ t x e, Pc.exec1 t x e ∈ s.ops → s.frames e = x
  computed : ∀ t x e r, Pc.fin t x e r ∈ s.ops → r = f x
  returned : ∀ r ∈ s.log, r.result = none ∨ r.result = some (f r.input)

theorem nodup_mid {A B : List Pc} {pc : Pc} {e : Nat} (h : ((A ++ pc :: B).filterMap Pc.holds).Nodup)
    (he : pc.holds = some e) : ∀ p ∈ A ++ B, p.holds ≠ some e := by
  rw [List.filterMap_append, List.filterMap_cons_some he, List.nodup_append, List.nodup_cons] at h
  intro p hp hh
  rcases List.mem_append.1 hp with hp | hp
  · exact h.2.2 e (List.mem_filterMap.2 ⟨p, hp, hh⟩) e List.mem_cons_self rfl
  · exact h.2.1.1 (List.mem_filterMap.2 ⟨p, hp, hh⟩)

theorem data_step {σ : Type} {w : Wrapper σ} {f : Nat → Nat} {re : Bool} {s : St σ} (a : Act) (hd : Data f s)
    (hx : Exclusive s) : Data f (act w f re s a) := by
  refine act_cases a hd ?_ ?_
  · intro t x _
    refine ⟨fun t' x' e' h => ?_, fun t' x' e' r h => ?_, hd.returned⟩
    · exact hd.written t' x' e' (by simpa using h)
    · exact hd.computed t' x' e' r (by simpa using h)
  · intro A pc B ok hops
    have hmem : ∀ p, p ∈ A ++ B → p ∈ s.ops := by
      intro p hp
      rw [hops]
      simp only [List.mem_append, List.mem_cons] at hp ⊢
      rcases hp with h | h <;> simp [h]
    unfold Exclusive at hx
    rw [hops] at hx
    cases pc with
    | start t x =>
      rw [stepPc]
      dsimp only
      cases (w.acquire s.shared t).2 with
      | some e =>
        refine ⟨fun t' x' e' h => hd.written t' x' e' (hmem _ ?_), fun t' x' e' r h => hd.computed t' x' e' r (hmem _ ?_),
          hd.returned⟩
        · simpa using h
        · simpa using h
      | none =>
        refine ⟨fun t' x' e' h => hd.written t' x' e' (hmem _ ?_), fun t' x' e' r h => hd.computed t' x' e' r (hmem _ ?_),
          hd.returned⟩
        · simpa using h
        · simpa using h
    | clone t x =>
      rw [stepPc]
      cases ok with
      | true =>
        refine ⟨fun t' x' e' h => hd.written t' x' e' (hmem _ ?_), fun t' x' e' r h => hd.computed t' x' e' r (hmem _ ?_),
          hd.returned⟩
        · simpa using h
        · simpa using h
      | false =>
        refine ⟨fun t' x' e' h => hd.written t' x' e' (hmem _ ?_), fun t' x' e' r h => hd.computed t' x' e' r (hmem _ ?_), ?_⟩
        · simpa using h
        · simpa using h
        · intro r hr
          rcases List.mem_cons.1 hr with rfl | hr
          · exact Or.inl rfl
          · exact hd.returned r hr
    | exec0 t x e =>
      rw [stepPc]
      have hno := nodup_mid hx (e := e) rfl
      refine ⟨?_, fun t' x' e' r h => hd.computed t' x' e' r (hmem _ ?_), hd.returned⟩
      · intro t' x' e' h
        dsimp only at h ⊢
        have h' : Pc.exec1 t' x' e' = Pc.exec1 t x e ∨ Pc.exec1 t' x' e' ∈ A ++ B := by
          simp only [Option.toList_some, List.mem_append, List.mem_cons, List.not_mem_nil, or_false, false_or] at h ⊢
          rcases h with h | h | h
          · exact Or.inr (Or.inl h)
          · exact Or.inl h
          · exact Or.inr (Or.inr h)
        rcases h' with h' | h'
        · injection h' with h1 h2 h3
          rw [h3, if_pos rfl, h2]
        · have hne : e' ≠ e := fun he => hno _ h' (by rw [he]; rfl)
          rw [if_neg hne]
          exact hd.written t' x' e' (hmem _ h')
      · simpa using h
    | exec1 t x e =>
      rw [stepPc]
      refine ⟨fun t' x' e' h => hd.written t' x' e' (hmem _ ?_), ?_, hd.returned⟩
      · simpa using h
      · intro t' x' e' r h
        have h' : Pc.fin t' x' e' r = Pc.fin t x e (f (s.frames e)) ∨ Pc.fin t' x' e' r ∈ A ++ B := by
          simp only [Option.toList_some, List.mem_append, List.mem_cons, List.not_mem_nil, or_false, false_or] at h ⊢
          rcases h with h | h | h
          · exact Or.inr (Or.inl h)
          · exact Or.inl h
          · exact Or.inr (Or.inr h)
        rcases h' with h' | h'
        · injection h' with h1 h2 h3 h4
          rw [h4, h2, hd.written t x e (by rw [hops]; simp)]
        · exact hd.computed t' x' e' r (hmem _ h')
    | fin t x e r =>
      rw [stepPc]
      refine ⟨fun t' x' e' h => hd.written t' x' e' (hmem _ ?_), fun t' x' e' r h => hd.computed t' x' e' r (hmem _ ?_), ?_⟩
      · simpa using h
      · simpa using h
      · intro r' hr
        rcases List.mem_cons.1 hr with rfl | hr
        · exact Or.inr (by rw [hd.computed t x e r (by rw [hops]; simp)])
        · exact hd.returned r' hr

theorem data_start {σ : Type} {w : Wrapper σ} {f : Nat → Nat} : Data f (St.start w) :=
  ⟨by simp [St.start], by simp [St.start], by simp [St.start]⟩

def holders (e : Nat) (ops : List Pc) : Nat := (ops.filterMap Pc.holds).count e

theorem holders_append (e : Nat) (a b : List Pc) : holders e (a ++ b) = holders e a + holders e b := by
  unfold holders
  rw [List.filterMap_append, List.count_append]

theorem holders_cons (e : Nat) (p : Pc) (l : List Pc) : holders e (p :: l) =
    (if p.holds = some e then 1 else 0) + holders e l := by
  unfold holders
  cases h : p.holds with
  | none => rw [List.filterMap_cons_none h]; simp
  | some x =>
    rw [List.filterMap_cons_some h, List.count_cons]
    by_cases hx : x = e
    · simp [hx]; omega
    · simp [hx]

theorem exclusive_of_holders {σ : Type} {s : St σ} (h : ∀ e, holders e s.ops ≤ 1) : Exclusive s :=
  List.nodup_iff_count_le_one.2 h

/-! ## The pool -/

structure PoolInv (m : Nat) (f : Nat → Nat) (s : St (List Nat)) : Prop where
  once : ∀ e, holders e s.ops + s.shared.count e ≤ 1
  fresh : ∀ e, s.next ≤ e → holders e s.ops + s.shared.count e = 0
  size : s.shared.length ≤ m
  data : Data f s

theorem pool_inv {m : Nat} {f : Nat → Nat} {re : Bool} {s : St (List Nat)} (h : Reachable (poolWrapper m) f re s) :
    PoolInv m f s := by
  refine run_induct (P := PoolInv m f) ?_ ?_ h
  · exact ⟨fun e => by simp [St.start, poolWrapper, holders], fun e _ => by simp [St.start, poolWrapper, holders],
      by simp [St.start, poolWrapper], data_start⟩
  · intro s a hi
    have hd := data_step (w := poolWrapper m) (re := re) a hi.data
      (exclusive_of_holders (fun e => by have := hi.once e; omega))
    suffices h : (∀ e, holders e (act (poolWrapper m) f re s a).ops + (act (poolWrapper m) f re s a).shared.count e ≤ 1) ∧
        (∀ e, (act (poolWrapper m) f re s a).next ≤ e →
          holders e (act (poolWrapper m) f re s a).ops + (act (poolWrapper m) f re s a).shared.count e = 0) ∧
        (act (poolWrapper m) f re s a).shared.length ≤ m from ⟨h.1, h.2.1, h.2.2, hd⟩
    refine act_cases (P := fun (t : St (List Nat)) => (∀ e, holders e t.ops + t.shared.count e ≤ 1) ∧
        (∀ e, t.next ≤ e → holders e t.ops + t.shared.count e = 0) ∧ t.shared.length ≤ m) a
        ⟨hi.once, hi.fresh, hi.size⟩ ?_ ?_
    · intro t x _
      refine ⟨fun e => ?_, fun e he => ?_, hi.size⟩
      · have := hi.once e
        rw [holders_append, holders_cons]
        simpa [Pc.holds, holders] using this
      · have := hi.fresh e he
        rw [holders_append, holders_cons]
        simpa [Pc.holds, holders] using this
    · intro A pc B ok hops
      have h1 := hi.once
      have h2 := hi.fresh
      have h3 := hi.size
      rw [hops] at h1 h2
      simp only [holders_append, holders_cons] at h1 h2 ⊢
      have hnil : ∀ e, holders e [] = 0 := fun e => rfl
      cases pc with
      | start t x =>
        rw [stepPc]
        simp only [poolWrapper]
        by_cases hm : m ≠ 0
        · rw [if_pos hm]
          cases hl : s.shared.getLast? with
          | none =>
            simp only [Pc.holds, reduceCtorEq, if_false, Option.toList_some, holders_cons, hnil] at *
            refine ⟨fun e => ?_, fun e he => ?_, h3⟩
            · have := h1 e; omega
            · have := h2 e he; omega
          | some y =>
            have hsh : ∀ e, s.shared.count e = s.shared.dropLast.count e + if y = e then 1 else 0 := by
              intro e
              obtain ⟨ys, hys⟩ := List.getLast?_eq_some_iff.1 hl
              rw [hys, List.dropLast_concat, List.count_append, List.count_singleton]
              simp
            simp only [Pc.holds, reduceCtorEq, if_false, Option.toList_some, holders_cons, hnil, Option.some.injEq] at *
            refine ⟨fun e => ?_, fun e he => ?_, ?_⟩
            · have := h1 e
              have := hsh e
              omega
            · have := h2 e he
              have := hsh e
              omega
            · rw [List.length_dropLast]
              omega
        · rw [if_neg hm]
          simp only [Pc.holds, reduceCtorEq, if_false, Option.toList_some, holders_cons, hnil] at *
          refine ⟨fun e => ?_, fun e he => ?_, h3⟩
          · have := h1 e; omega
          · have := h2 e he; omega
      | clone t x =>
        rw [stepPc]
        cases ok with
        | true =>
          simp only [poolWrapper, if_true, Pc.holds, reduceCtorEq, if_false, Option.toList_some, holders_cons,
            Option.some.injEq, hnil] at *
          refine ⟨fun e => ?_, fun e he => ?_, h3⟩
          · have := h1 e
            have := h2 s.next (Nat.le_refl _)
            by_cases he : s.next = e
            · subst he; simp only [if_true]; omega
            · rw [if_neg he]; omega
          · have := h2 e (by omega)
            rw [if_neg (by omega)]; omega
        | false =>
          simp only [Bool.false_eq_true, if_false, Pc.holds, reduceCtorEq, Option.toList_none, hnil] at *
          refine ⟨fun e => ?_, fun e he => ?_, h3⟩
          · have := h1 e; omega
          · have := h2 e he; omega
      | exec0 t x e0 =>
        rw [stepPc]
        simp only [Pc.holds, Option.toList_some, holders_cons, hnil, Option.some.injEq] at *
        refine ⟨fun e => ?_, fun e he => ?_, h3⟩
        · have := h1 e; omega
        · have := h2 e he; omega
      | exec1 t x e0 =>
        rw [stepPc]
        simp only [Pc.holds, Option.toList_some, holders_cons, hnil, Option.some.injEq] at *
        refine ⟨fun e => ?_, fun e he => ?_, h3⟩
        · have := h1 e; omega
        · have := h2 e he; omega
      | fin t x e0 r =>
        rw [stepPc]
        simp only [poolWrapper, Pc.holds, Option.toList_none, hnil, Option.some.injEq] at *
        have hcnt : ∀ e, (if m ≠ 0 then if s.shared.length < m then s.shared ++ [e0] else s.shared else s.shared).count e ≤
            s.shared.count e + if e0 = e then 1 else 0 := by
          intro e
          split
          · split
            · rw [List.count_append, List.count_singleton]
              simp
            · omega
          · omega
        refine ⟨fun e => ?_, fun e he => ?_, ?_⟩
        · have := h1 e
          have := hcnt e
          omega
        · have := h2 e he
          have := hcnt e
          omega
        · split
          · split
            · rw [List.length_append]; simp; omega
            · exact h3
          · exact h3

/-- C35.  `ThreadSafePoolModelExecutor`: evaluations in progress use different executors; the executors in the pool are
idle, different and at most `maximum_cache_size`; an evaluation returns what it would return alone. -/
theorem pool_exclusive {m : Nat} {f : Nat → Nat} {s : St (List Nat)} (h : Reachable (poolWrapper m) f true s) :
    Exclusive s ∧ s.shared.Nodup ∧ (∀ e ∈ s.shared, ∀ pc ∈ s.ops, pc.holds ≠ some e) ∧ s.shared.length ≤ m ∧
    ∀ r ∈ s.log, r.result = none ∨ r.result = some (f r.input) := by
  have hi := pool_inv h
  refine ⟨exclusive_of_holders (fun e => by have := hi.once e; omega),
    List.nodup_iff_count_le_one.2 (fun e => by have := hi.once e; omega), ?_, hi.size, hi.data.returned⟩
  intro e he pc hpc hh
  have h1 := hi.once e
  have h2 : 0 < s.shared.count e := List.count_pos_iff.2 he
  have h3 : 0 < holders e s.ops := List.count_pos_iff.2 (List.mem_filterMap.2 ⟨pc, hpc, hh⟩)
  omega

/-! ## The busy flag -/

structure BusyInv (f : Nat → Nat) (s : St Bool) : Prop where
  once : ∀ e, holders e s.ops ≤ 1
  flag : holders 0 s.ops = if s.shared then 1 else 0
  fresh : ∀ e, s.next ≤ e → holders e s.ops = 0
  pos : 1 ≤ s.next
  data : Data f s

theorem busy_inv {f : Nat → Nat} {re : Bool} {s : St Bool} (h : Reachable busyWrapper f re s) : BusyInv f s := by
  refine run_induct (P := BusyInv f) ?_ ?_ h
  · exact ⟨fun e => by simp [St.start, holders], by simp [St.start, busyWrapper, holders],
      fun e _ => by simp [St.start, holders], by simp [St.start, busyWrapper], data_start⟩
  · intro s a hi
    have hd := data_step (w := busyWrapper) (re := re) a hi.data (exclusive_of_holders hi.once)
    suffices h : (∀ e, holders e (act busyWrapper f re s a).ops ≤ 1) ∧
        (holders 0 (act busyWrapper f re s a).ops = if (act busyWrapper f re s a).shared then 1 else 0) ∧
        (∀ e, (act busyWrapper f re s a).next ≤ e → holders e (act busyWrapper f re s a).ops = 0) ∧
        1 ≤ (act busyWrapper f re s a).next from ⟨h.1, h.2.1, h.2.2.1, h.2.2.2, hd⟩
    refine act_cases (P := fun t => (∀ e, holders e t.ops ≤ 1) ∧ (holders 0 t.ops = if t.shared then 1 else 0) ∧
        (∀ e, t.next ≤ e → holders e t.ops = 0) ∧ 1 ≤ t.next) a
        ⟨hi.once, hi.flag, hi.fresh, hi.pos⟩ ?_ ?_
    · intro t x _
      have hh : ∀ e, holders e (s.ops ++ [Pc.start t x]) = holders e s.ops := by
        intro e
        rw [holders_append, holders_cons]
        simp [Pc.holds, holders]
      refine ⟨fun e => ?_, ?_, fun e he => ?_, hi.pos⟩
      · rw [hh]; exact hi.once e
      · rw [hh]; exact hi.flag
      · rw [hh]; exact hi.fresh e he
    · intro A pc B ok hops
      have h1 := hi.once
      have h2 := hi.flag
      have h3 := hi.fresh
      have h4 := hi.pos
      rw [hops] at h1 h2 h3
      simp only [holders_append, holders_cons] at h1 h2 h3 ⊢
      have hnil : ∀ e, holders e [] = 0 := fun e => rfl
      cases pc with
      | start t x =>
        rw [stepPc]
        simp only [busyWrapper]
        cases hb : s.shared with
        | false =>
          simp only [hb, Bool.not_false, if_true, Pc.holds, reduceCtorEq, if_false, Option.toList_some, holders_cons,
            Option.some.injEq, hnil, Bool.false_eq_true] at *
          refine ⟨fun e => ?_, ?_, fun e he => ?_, h4⟩
          · have := h1 e
            by_cases he : 0 = e
            · subst he; simp only [if_true]; omega
            · rw [if_neg he]; omega
          · omega
          · have := h3 e he
            rw [if_neg (by omega)]; omega
        | true =>
          simp only [hb, Bool.not_true, if_true, Pc.holds, reduceCtorEq, if_false, Option.toList_some, holders_cons,
            Option.some.injEq, hnil, Bool.false_eq_true] at *
          refine ⟨fun e => ?_, ?_, fun e he => ?_, h4⟩
          · have := h1 e; omega
          · omega
          · have := h3 e he; omega
      | clone t x =>
        rw [stepPc]
        cases ok with
        | true =>
          simp only [busyWrapper, if_true, Pc.holds, reduceCtorEq, if_false, Option.toList_some, holders_cons,
            Option.some.injEq, hnil] at *
          refine ⟨fun e => ?_, ?_, fun e he => ?_, by omega⟩
          · have := h1 e
            have := h3 s.next (Nat.le_refl _)
            by_cases he : s.next = e
            · subst he; simp only [if_true]; omega
            · rw [if_neg he]; omega
          · rw [if_neg (by omega)]; omega
          · have := h3 e (by omega)
            rw [if_neg (by omega)]; omega
        | false =>
          simp only [Bool.false_eq_true, if_false, Pc.holds, reduceCtorEq, Option.toList_none, hnil] at *
          refine ⟨fun e => ?_, ?_, fun e he => ?_, h4⟩
          · have := h1 e; omega
          · omega
          · have := h3 e he; omega
      | exec0 t x e0 =>
        rw [stepPc]
        simp only [Pc.holds, Option.toList_some, holders_cons, hnil, Option.some.injEq] at *
        refine ⟨fun e => ?_, ?_, fun e he => ?_, h4⟩
        · have := h1 e; omega
        · omega
        · have := h3 e he; omega
      | exec1 t x e0 =>
        rw [stepPc]
        simp only [Pc.holds, Option.toList_some, holders_cons, hnil, Option.some.injEq] at *
        refine ⟨fun e => ?_, ?_, fun e he => ?_, h4⟩
        · have := h1 e; omega
        · omega
        · have := h3 e he; omega
      | fin t x e0 r =>
        rw [stepPc]
        simp only [busyWrapper, Pc.holds, Option.toList_none, hnil, Option.some.injEq] at *
        refine ⟨fun e => ?_, ?_, fun e he => ?_, h4⟩
        · have := h1 e; omega
        · by_cases he : e0 = 0
          · have := h1 0
            simp only [he, if_true, Bool.false_eq_true, if_false] at *
            omega
          · simp only [if_neg he] at *
            omega
        · have := h3 e he; omega

/-- C35.  `ThreadSafeCloneWhenBusyModelExecutor`: evaluations in progress use different executors, the shared one is in
use exactly while the flag is set, and an evaluation returns what it would return alone. -/
theorem busy_exclusive {f : Nat → Nat} {s : St Bool} (h : Reachable busyWrapper f true s) :
    Exclusive s ∧ (s.shared = true ↔ ∃ pc ∈ s.ops, pc.holds = some 0) ∧
    ∀ r ∈ s.log, r.result = none ∨ r.result = some (f r.input) := by
  have hi := busy_inv h
  refine ⟨exclusive_of_holders hi.once, ?_, hi.data.returned⟩
  have hf := hi.flag
  constructor
  · intro hs
    rw [hs, if_pos rfl] at hf
    have : 0 ∈ s.ops.filterMap Pc.holds := List.count_pos_iff.1 (by unfold holders at hf; omega)
    exact List.mem_filterMap.1 this
  · rintro ⟨pc, hpc, hh⟩
    have : 0 < holders 0 s.ops := List.count_pos_iff.2 (List.mem_filterMap.2 ⟨pc, hpc, hh⟩)
    by_contra hs
    rw [if_neg hs] at hf
    omega

/-! ## Thread local executors -/

structure LocalInv (f : Nat → Nat) (s : St (Nat → Option Nat)) : Prop where
  threads : (s.ops.map Pc.thread).Nodup
  own : ∀ pc ∈ s.ops, ∀ e, pc.holds = some e → s.shared pc.thread = some e
  inj : ∀ t u e, s.shared t = some e → s.shared u = some e → t = u
  fresh : ∀ t e, s.shared t = some e → e < s.next
  cloning : ∀ t x, Pc.clone t x ∈ s.ops → s.shared t = none
  data : Data f s

theorem local_exclusive_of {f : Nat → Nat} {s : St (Nat → Option Nat)} (hi : LocalInv f s) : Exclusive s := by
  unfold Exclusive
  have h1 := hi.threads
  have h2 := hi.own
  generalize s.ops = l at h1 h2
  induction l with
  | nil => simp
  | cons p l ih =>
    rw [List.map_cons, List.nodup_cons] at h1
    have ih' := ih h1.2 (fun pc hpc => h2 pc (List.mem_cons_of_mem _ hpc))
    cases hp : p.holds with
    | none => rw [List.filterMap_cons_none hp]; exact ih'
    | some e =>
      rw [List.filterMap_cons_some hp, List.nodup_cons]
      refine ⟨fun hm => ?_, ih'⟩
      obtain ⟨q, hq, hqe⟩ := List.mem_filterMap.1 hm
      have e1 := h2 p List.mem_cons_self e hp
      have e2 := h2 q (List.mem_cons_of_mem _ hq) e hqe
      have := hi.inj _ _ _ e1 e2
      exact h1.1 (by rw [this]; exact List.mem_map_of_mem hq)

theorem local_inv {f : Nat → Nat} {s : St (Nat → Option Nat)} (h : Reachable localWrapper f false s) : LocalInv f s := by
  refine run_induct (P := LocalInv f) ?_ ?_ h
  · exact ⟨by simp [St.start], by simp [St.start], by simp [St.start, localWrapper], by simp [St.start, localWrapper],
      by simp [St.start], data_start⟩
  · intro s a hi
    have hd := data_step (w := localWrapper) (re := false) a hi.data (local_exclusive_of hi)
    suffices h : ((act localWrapper f false s a).ops.map Pc.thread).Nodup ∧
        (∀ pc ∈ (act localWrapper f false s a).ops, ∀ e, pc.holds = some e →
          (act localWrapper f false s a).shared pc.thread = some e) ∧
        (∀ t u e, (act localWrapper f false s a).shared t = some e → (act localWrapper f false s a).shared u = some e → t = u) ∧
        (∀ t e, (act localWrapper f false s a).shared t = some e → e < (act localWrapper f false s a).next) ∧
        (∀ t x, Pc.clone t x ∈ (act localWrapper f false s a).ops → (act localWrapper f false s a).shared t = none) from
      ⟨h.1, h.2.1, h.2.2.1, h.2.2.2.1, h.2.2.2.2, hd⟩
    refine act_cases (P := fun (s' : St (Nat → Option Nat)) => (s'.ops.map Pc.thread).Nodup ∧
        (∀ pc ∈ s'.ops, ∀ e, pc.holds = some e → s'.shared pc.thread = some e) ∧
        (∀ t u e, s'.shared t = some e → s'.shared u = some e → t = u) ∧
        (∀ t e, s'.shared t = some e → e < s'.next) ∧
        (∀ t x, Pc.clone t x ∈ s'.ops → s'.shared t = none)) a
        ⟨hi.threads, hi.own, hi.inj, hi.fresh, hi.cloning⟩ ?_ ?_
    · intro t x hre
      have hre : ∀ pc ∈ s.ops, pc.thread ≠ t := by
        rcases hre with h | h
        · cases h
        · exact h
      refine ⟨?_, ?_, hi.inj, hi.fresh, ?_⟩
      · dsimp only
        rw [List.map_append, List.nodup_append]
        refine ⟨hi.threads, by simp, ?_⟩
        intro a ha b hb
        obtain ⟨p, hp, rfl⟩ := List.mem_map.1 ha
        simp only [List.map_cons, List.map_nil, List.mem_singleton] at hb
        rw [hb]
        exact hre p hp
      · intro pc hpc e he
        rcases List.mem_append.1 hpc with hpc | hpc
        · exact hi.own pc hpc e he
        · rw [List.mem_singleton.1 hpc] at he; cases he
      · intro t' x' hm
        exact hi.cloning t' x' (by simpa using hm)
    · intro A pc B ok hops
      have h1 := hi.threads
      have h2 := hi.own
      have h5 := hi.cloning
      rw [hops] at h1 h2 h5
      have hth : ∀ p, (p : Pc).thread = pc.thread → ((A ++ ([p] ++ B)).map Pc.thread).Nodup := by
        intro p hp
        simpa [hp] using h1
      have hth0 : ((A ++ B).map Pc.thread).Nodup := by
        simp only [List.map_append, List.map_cons, List.nodup_append, List.nodup_cons] at h1 ⊢
        exact ⟨h1.1, h1.2.1.2, fun a ha b hb => h1.2.2 a ha b (List.mem_cons_of_mem _ hb)⟩
      have hother : ∀ p ∈ A ++ B, p.thread ≠ pc.thread := by
        intro p hp he
        simp only [List.map_append, List.map_cons, List.nodup_append, List.nodup_cons] at h1
        rcases List.mem_append.1 hp with hp | hp
        · exact h1.2.2 _ (List.mem_map_of_mem hp) _ List.mem_cons_self he
        · exact h1.2.1.1 (by rw [← he]; exact List.mem_map_of_mem hp)
      have hAB : ∀ p, p ∈ A ++ B → p ∈ A ++ pc :: B := by
        intro p hp
        simp only [List.mem_append, List.mem_cons] at hp ⊢
        rcases hp with h | h <;> simp [h]
      have hsplit : ∀ p q, q ∈ A ++ ([p] ++ B) → q = p ∨ q ∈ A ++ B := by
        intro p q hq
        simp only [List.mem_append, List.mem_singleton] at hq ⊢
        rcases hq with h | h | h <;> simp [h]
      cases pc with
      | start t x =>
        rw [stepPc]
        simp only [localWrapper]
        cases hl : s.shared t with
        | some e =>
          refine ⟨hth _ rfl, ?_, hi.inj, hi.fresh, ?_⟩
          · intro q hq e' he'
            rcases hsplit _ q hq with rfl | hq
            · rw [← he']; exact hl
            · exact h2 q (hAB q hq) e' he'
          · intro t' x' hm
            rcases hsplit _ _ hm with h | h
            · cases h
            · exact h5 t' x' (hAB _ h)
        | none =>
          refine ⟨hth _ rfl, ?_, hi.inj, hi.fresh, ?_⟩
          · intro q hq e' he'
            rcases hsplit _ q hq with rfl | hq
            · cases he'
            · exact h2 q (hAB q hq) e' he'
          · intro t' x' hm
            rcases hsplit _ _ hm with h | h
            · injection h with h _; rw [h]; exact hl
            · exact h5 t' x' (hAB _ h)
      | clone t x =>
        have hnone : s.shared t = none := h5 t x (by simp)
        rw [stepPc]
        cases ok with
        | true =>
          simp only [if_true, localWrapper]
          refine ⟨hth _ rfl, ?_, ?_, ?_, ?_⟩
          · intro q hq e' he'
            rcases hsplit _ q hq with rfl | hq
            · rw [← he']; exact if_pos rfl
            · rw [if_neg (show q.thread ≠ t from hother q hq)]
              exact h2 q (hAB q hq) e' he'
          · intro t1 t2 e h1 h2
            by_cases ht1 : t1 = t
            · by_cases ht2 : t2 = t
              · rw [ht1, ht2]
              · rw [if_pos ht1] at h1
                rw [if_neg ht2] at h2
                have := hi.fresh _ _ h2
                have := Option.some.inj h1
                omega
            · rw [if_neg ht1] at h1
              by_cases ht2 : t2 = t
              · rw [if_pos ht2] at h2
                have := hi.fresh _ _ h1
                have := Option.some.inj h2
                omega
              · rw [if_neg ht2] at h2
                exact hi.inj _ _ _ h1 h2
          · intro t1 e h1
            by_cases ht1 : t1 = t
            · rw [if_pos ht1] at h1
              have := Option.some.inj h1
              omega
            · rw [if_neg ht1] at h1
              have := hi.fresh _ _ h1
              omega
          · intro t' x' hm
            rcases hsplit _ _ hm with h | h
            · cases h
            · rw [if_neg (show t' ≠ t from hother _ h)]
              exact h5 t' x' (hAB _ h)
        | false =>
          refine ⟨hth0, ?_, hi.inj, hi.fresh, ?_⟩
          · intro q hq e' he'
            exact h2 q (hAB q hq) e' he'
          · intro t' x' hm
            exact h5 t' x' (hAB _ hm)
      | exec0 t x e0 =>
        rw [stepPc]
        refine ⟨hth _ rfl, ?_, hi.inj, hi.fresh, ?_⟩
        · intro q hq e' he'
          rcases hsplit _ q hq with rfl | hq
          · exact h2 (.exec0 t x e0) (by simp) e' he'
          · exact h2 q (hAB q hq) e' he'
        · intro t' x' hm
          rcases hsplit _ _ hm with h | h
          · cases h
          · exact h5 t' x' (hAB _ h)
      | exec1 t x e0 =>
        rw [stepPc]
        refine ⟨hth _ rfl, ?_, hi.inj, hi.fresh, ?_⟩
        · intro q hq e' he'
          rcases hsplit _ q hq with rfl | hq
          · exact h2 (.exec1 t x e0) (by simp) e' he'
          · exact h2 q (hAB q hq) e' he'
        · intro t' x' hm
          rcases hsplit _ _ hm with h | h
          · cases h
          · exact h5 t' x' (hAB _ h)
      | fin t x e0 r =>
        rw [stepPc]
        refine ⟨hth0, ?_, hi.inj, hi.fresh, ?_⟩
        · intro q hq e' he'
          exact h2 q (hAB q hq) e' he'
        · intro t' x' hm
          exact h5 t' x' (hAB _ hm)

/-- C35.  `ThreadSafeModelExecutor` when no evaluation starts another one of the same wrapper in its thread: evaluations
in progress use different executors and return what they would return alone. -/
theorem thread_local_exclusive_partial {f : Nat → Nat} {s : St (Nat → Option Nat)} (h : Reachable localWrapper f false s) :
    Exclusive s ∧ (∀ t u e, s.shared t = some e → s.shared u = some e → t = u) ∧
    ∀ r ∈ s.log, r.result = none ∨ r.result = some (f r.input) := by
  have hi := local_inv h
  exact ⟨local_exclusive_of hi, hi.inj, hi.data.returned⟩

/-- With nested evaluations in one thread it is false: the inner evaluation overwrites the frame of the outer one. -/
theorem thread_local_nested_counterexample : ¬∀ (f : Nat → Nat) (s : St (Nat → Option Nat)),
    Reachable localWrapper f true s → ∀ r ∈ s.log, r.result = none ∨ r.result = some (f r.input) := by
  intro h
  have := h id _ ⟨[.call 0 5, .advance 0 true, .advance 0 true, .advance 0 true, .call 0 7, .advance 1 true,
    .advance 1 true, .advance 1 true, .advance 1 true, .advance 0 true, .advance 0 true], rfl⟩ ⟨5, some 7⟩ (by decide +kernel)
  revert this
  decide

/-- Every evaluation ends: a call needs at most 5 steps, whatever the other evaluations did. -/
def remaining : Pc → Nat
  | .start _ _ => 5
  | .clone _ _ => 4
  | .exec0 _ _ _ => 3
  | .exec1 _ _ _ => 2
  | .fin _ _ _ _ => 1

theorem evaluation_progress {σ : Type} (w : Wrapper σ) (f : Nat → Nat) (ok : Bool) (s : St σ) (pc : Pc) :
    ((stepPc w f ok s pc).2.map remaining).getD 0 < remaining pc := by
  cases pc with
  | start t x =>
    rw [stepPc]
    cases (w.acquire s.shared t).2 <;> simp [remaining]
  | clone t x => cases ok <;> simp [stepPc, remaining]
  | exec0 => simp [stepPc, remaining]
  | exec1 => simp [stepPc, remaining]
  | fin => simp [stepPc, remaining]

/-! ## Concrete cases -/

/-- Three evaluations, two of them at the same time, with a pool of one. -/
def sample : St (List Nat) := runFrom (poolWrapper 1) (· + 1) true (St.start (poolWrapper 1))
  ([.call 0 10, .call 1 20] ++ List.replicate 5 (.advance 0 true) ++ [.advance 0 true, .call 0 30, .advance 1 true] ++
    List.replicate 3 (.advance 0 true))

example : Reachable (poolWrapper 1) (· + 1) true sample := ⟨_, rfl⟩
example : sample.log = [⟨20, some 21⟩, ⟨10, some 11⟩] ∧ sample.ops = [.clone 0 30] ∧ sample.shared = [0] := by
  decide +kernel

def sampleBusy : St Bool := runFrom busyWrapper (· + 1) true (St.start busyWrapper)
  [.call 0 10, .call 1 20, .advance 0 true, .advance 1 true, .advance 1 true, .advance 1 true, .advance 1 true]

example : sampleBusy.ops = [.exec0 0 10 0, .fin 1 20 1 21] ∧ sampleBusy.shared = true := by decide +kernel

end Verif.Conc.Exec
