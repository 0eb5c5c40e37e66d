import Verif.Conc.ScopeModel

/-!
# C57: scopes of the current cancellation context

Specification: a stack of guards.  Destroying the top guard pops it, destroying any other live guard crashes,
destroying a guard which does not exist is undefined.
-/

namespace Verif.Conc.Scope

/-- The specification: guards (number, context), innermost first, and the next number. -/
abbrev Stack := List (Nat × Option Nat)

def specStep (st : Stack × Nat) : Op → Res (Stack × Nat)
  | .make c => .ok ((st.2, c) :: st.1, st.2 + 1)
  | .destroy g =>
    match st.1 with
    | [] => .ub
    | (t, _) :: rest => if t = g then .ok (rest, st.2) else if g ∈ rest.map Prod.fst then .crash else .ub

def specRun (st : Stack × Nat) : List Op → Res (Stack × Nat)
  | [] => .ok st
  | o :: os => (specStep st o).bind fun st' => specRun st' os

/-- The context of the innermost guard. -/
def top : Stack → Option Nat
  | [] => none
  | (_, c) :: _ => c

/-- Outcomes agree; the current context is the one of the innermost guard. -/
def Agree : Res St → Res (Stack × Nat) → Prop
  | .ok s, .ok st => s.tls.ctx = top st.1 ∧ ∀ flags, cancelled flags s = (top st.1).any flags
  | .crash, .crash => True
  | .ub, .ub => True
  | _, _ => False

/-- Linked guards. -/
def Linked (guards : Nat → Option Guard) : Stack → Prop
  | [] => True
  | (i, c) :: rest => guards i = some ⟨c, rest.head?.map Prod.fst⟩ ∧ Linked guards rest

theorem linked_congr {g g' : Nat → Option Guard} : ∀ {st : Stack}, (∀ x ∈ st, g' x.1 = g x.1) → Linked g st →
    Linked g' st := by
  intro st
  induction st with
  | nil => intro _ _; trivial
  | cons x xs ih =>
    intro h hl
    exact ⟨by rw [h x (by simp)]; exact hl.1, ih (fun y hy => h y (by simp [hy])) hl.2⟩

structure Inv (s : St) (st : Stack × Nat) : Prop where
  next : s.next = st.2
  tls : s.tls = ⟨top st.1, st.1.head?.map Prod.fst⟩
  linked : Linked s.guards st.1
  live : ∀ i, s.guards i ≠ none → i ∈ st.1.map Prod.fst
  lt : ∀ x ∈ st.1, x.1 < st.2
  nodup : (st.1.map Prod.fst).Nodup

theorem linked_get {g : Nat → Option Guard} : ∀ {st : Stack}, Linked g st → ∀ i ∈ st.map Prod.fst, ∃ gd, g i = some gd := by
  intro st
  induction st with
  | nil => intro _ i hi; simp at hi
  | cons x xs ih =>
    intro hl i hi
    rcases List.mem_cons.1 hi with rfl | hi
    · exact ⟨_, hl.1⟩
    · exact ih hl.2 i hi

theorem step_inv {s : St} {st : Stack × Nat} (h : Inv s st) (o : Op) :
    (∃ s' st', step s o = .ok s' ∧ specStep st o = .ok st' ∧ Inv s' st') ∨
    (step s o = .crash ∧ specStep st o = .crash) ∨ (step s o = .ub ∧ specStep st o = .ub) := by
  obtain ⟨stk, n⟩ := st
  cases o with
  | make c =>
    refine Or.inl ⟨⟨⟨c, some s.next⟩, fun j => if j = s.next then some ⟨c, s.tls.guard⟩ else s.guards j, s.next + 1⟩,
      ((n, c) :: stk, n + 1), ?_, rfl, ?_⟩
    · simp [step, make, update, Res.bind]
    · have hn : s.next = n := h.next
      refine ⟨by simp [hn], by simp [hn, top], ?_, ?_, ?_, ?_⟩
      · refine ⟨by simp [hn, h.tls], linked_congr (fun x hx => ?_) h.linked⟩
        have := h.lt x hx
        dsimp only at this ⊢
        rw [if_neg (by omega)]
      · intro i hi
        dsimp only at hi
        by_cases hin : i = s.next
        · simp [hin, hn]
        · rw [if_neg hin] at hi
          exact List.mem_cons_of_mem _ (h.live i hi)
      · intro x hx
        rcases List.mem_cons.1 hx with rfl | hx
        · simp
        · have := h.lt x hx
          dsimp only at this ⊢
          omega
      · rw [List.map_cons, List.nodup_cons]
        refine ⟨fun hc => ?_, h.nodup⟩
        obtain ⟨x, hx, hxn⟩ := List.mem_map.1 hc
        have := h.lt x hx
        dsimp only at this hxn
        omega
  | destroy g =>
    have dead : g ∉ stk.map Prod.fst → destroy s g = .ub := by
      intro hg
      unfold destroy
      cases hs : s.guards g with
      | none => rfl
      | some _ => exact absurd (h.live g (by rw [hs]; simp)) hg
    cases stk with
    | nil => exact Or.inr (Or.inr ⟨dead (by simp), rfl⟩)
    | cons x rest =>
      obtain ⟨t, c⟩ := x
      have hnd := h.nodup
      rw [List.map_cons, List.nodup_cons] at hnd
      by_cases htg : t = g
      · subst htg
        have e := h.linked.1
        have hup : update s.guards (rest.head?.map Prod.fst) = .ok ⟨top rest, rest.head?.map Prod.fst⟩ := by
          cases rest with
          | nil => rfl
          | cons y ys =>
            have := h.linked.2.1
            simp only [update, List.head?_cons, Option.map_some, this, top]
        refine Or.inl ⟨⟨⟨top rest, rest.head?.map Prod.fst⟩, fun j => if j = t then none else s.guards j, s.next⟩,
          (rest, n), ?_, by simp [specStep], ?_⟩
        · show destroy s t = _
          unfold destroy
          rw [e]
          dsimp only
          rw [if_pos (by rw [h.tls]; rfl), hup]
          rfl
        · refine ⟨h.next, rfl, ?_, ?_, ?_, hnd.2⟩
          · refine linked_congr (fun y hy => ?_) h.linked.2
            dsimp only
            rw [if_neg]
            intro hc
            exact hnd.1 (List.mem_map.2 ⟨y, hy, hc⟩)
          · intro i hi
            dsimp only at hi
            by_cases hit : i = t
            · rw [if_pos hit] at hi; exact absurd rfl hi
            · rw [if_neg hit] at hi
              rcases List.mem_cons.1 (h.live i hi) with h' | h'
              · exact absurd h' hit
              · exact h'
          · intro y hy
            exact h.lt y (List.mem_cons_of_mem _ hy)
      · by_cases hg : g ∈ rest.map Prod.fst
        · refine Or.inr (Or.inl ⟨?_, ?_⟩)
          · obtain ⟨gd, hgd⟩ := linked_get h.linked g (List.mem_cons_of_mem _ hg)
            show destroy s g = _
            unfold destroy
            rw [hgd]
            dsimp only
            rw [if_neg]
            rw [h.tls]
            simpa using htg
          · show specStep _ _ = _
            unfold specStep
            dsimp only
            rw [if_neg htg, if_pos hg]
        · refine Or.inr (Or.inr ⟨dead ?_, ?_⟩)
          · rw [List.map_cons, List.mem_cons]
            rintro (h' | h')
            · exact htg h'.symm
            · exact hg h'
          · show specStep _ _ = _
            unfold specStep
            dsimp only
            rw [if_neg htg, if_neg hg]

/-- For every history of constructions and destructions of guards: the current context is the one of the innermost
live guard (destroying a guard restores the previous context); destroying a guard which is not the innermost one
crashes; nothing else fails. -/
theorem scope_guard_stack (ops : List Op) : Agree (run St.init ops) (specRun ([], 0) ops) := by
  have main : ∀ (ops : List Op) {s : St} {st : Stack × Nat}, Inv s st → Agree (run s ops) (specRun st ops) := by
    intro ops
    induction ops with
    | nil =>
      intro s st h
      have : s.tls.ctx = top st.1 := by rw [h.tls]
      refine ⟨this, fun flags => ?_⟩
      unfold cancelled
      rw [this]
      cases top st.1 <;> rfl
    | cons o os ih =>
      intro s st h
      rw [run, specRun]
      rcases step_inv h o with ⟨s', st', h1, h2, h3⟩ | ⟨h1, h2⟩ | ⟨h1, h2⟩
      · rw [h1, h2]; exact ih h3
      · rw [h1, h2]; trivial
      · rw [h1, h2]; trivial
  refine main ops ⟨rfl, rfl, trivial, ?_, ?_, List.nodup_nil⟩
  · intro i hi; exact absurd rfl hi
  · intro x hx; cases hx

/-- Nested scopes, the second one without a context; leaving them restores the first. -/
example : (match run St.init [.make (some 5), .make none, .make (some 6), .destroy 2, .destroy 1] with
    | .ok s => some (s.tls.ctx, cancelled (fun c => c == 5) s)
    | _ => none) = some (some 5, true) := by decide

example : (match run St.init [.make (some 5), .make (some 6), .destroy 0] with | .crash => true | _ => false) = true := by
  decide

end Verif.Conc.Scope
