import Verif.While.LoopLemmas

/-!
# Properties of while loops
-/

namespace Verif.While
open Verif.Expr Verif.Lambda

section
variable {O V Q E D : Type} [DecidableEq O] [DecidableEq V] [DecidableEq Q]

/-- Every variable of the body has an allowed name and an initial value, and so has every variable used. -/
def Ready (init : Named O V Q) (cond : Node O V Q) (body : Named O V Q) : Prop :=
  (∀ x e, find body x = some e → ¬ Reserved x ∧ (find init x).isSome = true ∧ ∀ k, PhIn e k → (find init k).isSome = true) ∧
  ∀ k, PhIn cond k → (find init k).isSome = true

theorem allInitialized_iff {T : Type} (init : List (Key × T)) (ks : List Key) :
    allInitialized (expressionNames init) ks = true ↔ ∀ k ∈ ks, (find init k).isSome = true := by
  unfold allInitialized
  rw [List.all_eq_true]
  constructor
  · intro h k hk
    have := h k hk
    rw [List.contains_iff_mem, mem_names] at this
    exact this
  · intro h k hk
    rw [List.contains_iff_mem, mem_names]
    exact h k hk

theorem keys_spec {G : Lang O V (Attr Q V) E} {e : Node O V Q} (hwf : WF G e) :
    ∃ ks, exprKeys placeholderKey e = some ks ∧ ∀ k, k ∈ ks ↔ PhIn e k := by
  obtain ⟨ks, po, h1, -, -, -, h2⟩ := leaf_keys G e (fun n hn => wf_sub hwf hn) placeholderKey (Or.inr rfl)
  exact ⟨ks, h1, h2⟩

theorem bodyInitialized_spec {G : Lang O V (Attr Q V) E} {T : Type} (init : List (Key × T)) : ∀ body : Named O V Q,
    (∀ e ∈ body, WF G e.2) → ∃ b, bodyInitialized (expressionNames init) body = some b ∧
      (b = true ↔ ∀ e ∈ body, ∀ k, PhIn e.2 k → (find init k).isSome = true) := by
  intro body
  induction body with
  | nil => intro _; exact ⟨true, rfl, by simp⟩
  | cons e rest ih =>
    intro h
    obtain ⟨b, h1, h2⟩ := ih (fun e he => h e (by simp [he]))
    obtain ⟨ks, k1, k2⟩ := keys_spec (h e (by simp))
    refine ⟨allInitialized (expressionNames init) ks && b, by rw [bodyInitialized, k1, h1], ?_⟩
    rw [Bool.and_eq_true, h2, allInitialized_iff]
    constructor
    · rintro ⟨g1, g2⟩ e' he'
      rcases List.mem_cons.1 he' with rfl | he'
      · exact fun k hk => g1 k ((k2 k).2 hk)
      · exact g2 e' he'
    · intro g
      exact ⟨fun k hk => g e (by simp) k ((k2 k).1 hk), fun e' he' => g e' (by simp [he'])⟩

/-- The steps of `makeWhileLoop`. -/
theorem make_steps {G : Lang O V (Attr Q V) E} {P : Ops O V} {noValue : Key → E} {init : Named O V Q} {cond : Node O V Q}
    {body : Named O V Q} (hA : Args G init cond body) :
    (∃ x, makeWhileLoop G P noValue init cond body = some (.error x) ∧
      (Accepting G → ¬ Ready init cond body)) ∨
    ∃ names init' cond' body', Moved G init cond body names init' cond' body' ∧ (init'.map (·.1)).Nodup ∧ Ready init cond body ∧
      Ready init' cond' body' ∧ makeWhileLoop G P noValue init cond body = finish G P noValue init' cond' body' := by
  obtain ⟨h1, h2⟩ := move_spec hA
  have hbk : ∀ e ∈ body, find body e.1 = some e.2 := fun e he => find_of_mem hA.bodyKeys he
  unfold makeWhileLoop
  cases hm : moveImmutables G init cond body with
  | none => exact absurd hm h1
  | some r =>
    cases r with
    | error x =>
      refine Or.inl ⟨x, rfl, fun hG hR => ?_⟩
      unfold moveImmutables at hm
      split at hm
      · rename_i hres
        rw [List.any_eq_true] at hres
        obtain ⟨e, he, hr⟩ := hres
        exact (hR.1 e.1 e.2 (hbk e he)).1 hr
      · cases hl : moveLoop G body [] init with
        | none => rw [hl] at hm; cases hm
        | some y =>
          cases y with
          | error y => exact moveLoop_accepting hG body [] init y (fun e he => (hA.bodyWF e he).1) hl
          | ok y =>
            rw [hl] at hm
            simp only at hm
            cases hx : extractImmutables G cond y.1 with
            | none => rw [hx] at hm; cases hm
            | some z =>
              cases z with
              | error z => exact extract_accepting hG cond hA.condWF y.1 z hx
              | ok z => rw [hx] at hm; cases hm
    | ok r =>
      obtain ⟨init', cond', body'⟩ := r
      obtain ⟨hres, names, hM⟩ := h2 init' cond' body' hm
      obtain ⟨m1, m2, m3⟩ := moved_find hM.body
      have hbnd : (body'.map (·.1)).Nodup := by rw [m1]; exact hA.bodyKeys
      have hbm : ∀ e ∈ body', find body' e.1 = some e.2 := fun e he => find_of_mem hbnd he
      have hbd : ∀ x e, find body' x = some e → ∃ e0, find body x = some e0 ∧ DOk G names e0 e := by
        intro x e he
        have h2 := m2 x
        rw [he] at h2
        obtain ⟨e0, he0⟩ := Option.isSome_iff_exists.1 h2
        exact ⟨e0, he0, m3 x e0 e he0 he⟩
      have hbd' : ∀ x e0, find body x = some e0 → ∃ e, find body' x = some e ∧ DOk G names e0 e := by
        intro x e0 he0
        have h2 := m2 x
        rw [he0] at h2
        obtain ⟨e, he⟩ := Option.isSome_iff_exists.1 h2.symm
        exact ⟨e, he, m3 x e0 e he0 he⟩
      -- the names used before and after
      have hkeys : ∀ e0 e, DOk G names e0 e → (∀ k, PhIn e0 k → ¬ Reserved k) →
          ((∀ k, PhIn e k → (find init' k).isSome = true) ↔ ∀ k, PhIn e0 k → (find init k).isSome = true) := by
        intro e0 e hd hr
        constructor
        · intro h k hk
          rw [← hM.init.other k (hr k hk)]
          exact h k (hd.keep k hk)
        · intro h k hk
          rcases hd.keys k hk with h' | ⟨i, hi, rfl⟩
          · rw [hM.init.other k (hr k h')]
            exact h k h'
          · rw [hM.init.named i _ (List.getElem?_eq_getElem hi)]
            rfl
      have hfree : ∀ x e0, find body x = some e0 → ∀ k, PhIn e0 k → ¬ Reserved k := by
        intro x e0 he0
        exact (hA.bodyWF (x, e0) (find_mem he0)).2
      simp only
      obtain ⟨ks, k1, k2⟩ := keys_spec hM.cond.wf
      obtain ⟨b, b1, b2⟩ := bodyInitialized_spec (G := G) init' body' (fun e he => by
        obtain ⟨e0, -, hd⟩ := hbd e.1 e.2 (hbm e he)
        exact hd.wf)
      rw [k1, b1]
      simp only
      have hcheck : (allInitialized (expressionNames init') (expressionNames body') &&
          allInitialized (expressionNames init') ks && b) = true ↔ Ready init cond body := by
        rw [Bool.and_eq_true, Bool.and_eq_true, b2, allInitialized_iff, allInitialized_iff]
        constructor
        · rintro ⟨⟨g1, g2⟩, g3⟩
          refine ⟨?_, (hkeys cond cond' hM.cond hA.condFree).1 (fun k hk => g2 k ((k2 k).2 hk))⟩
          intro x e0 he0
          obtain ⟨e, he, hd⟩ := hbd' x e0 he0
          have hxr := hres x (by rw [he0]; rfl)
          refine ⟨hxr, ?_, (hkeys e0 e hd (hfree x e0 he0)).1 (fun k hk => g3 (x, e) (find_mem he) k hk)⟩
          rw [← hM.init.other x hxr]
          exact g1 x ((mem_names _ _).2 (by rw [he]; rfl))
        · rintro ⟨g1, g2⟩
          refine ⟨⟨?_, ?_⟩, ?_⟩
          · intro x hx
            obtain ⟨e, he⟩ := Option.isSome_iff_exists.1 ((mem_names _ _).1 hx)
            obtain ⟨e0, he0, hd⟩ := hbd x e he
            obtain ⟨q1, q2, -⟩ := g1 x e0 he0
            rw [hM.init.other x q1]
            exact q2
          · intro k hk
            exact (hkeys cond cond' hM.cond hA.condFree).2 g2 k ((k2 k).1 hk)
          · intro e he
            obtain ⟨e0, he0, hd⟩ := hbd e.1 e.2 (hbm e he)
            exact (hkeys e0 e.2 hd (hfree e.1 e0 he0)).2 (g1 e.1 e0 he0).2.2
      split
      · rename_i hc
        have hR := hcheck.1 hc
        refine Or.inr ⟨names, init', cond', body', hM, nodup_move hA.initKeys hm, hR, ?_, rfl⟩
        refine ⟨?_, (hkeys cond cond' hM.cond hA.condFree).2 hR.2⟩
        intro x e he
        obtain ⟨e0, he0, hd⟩ := hbd x e he
        obtain ⟨q1, q2, q3⟩ := hR.1 x e0 he0
        refine ⟨q1, ?_, (hkeys e0 e hd (hfree x e0 he0)).2 q3⟩
        rw [hM.init.other x q1]
        exact q2
      · rename_i hc
        exact Or.inl ⟨_, rfl, fun _ hR => hc (hcheck.2 hR)⟩

/-- Without reserved names the loop computes the variables: after `k` iterations the state is the tuple of the variables of the body, in the order of
their names, and the condition is the condition on the variables. -/
theorem while_value_partial (G : Lang O V (Attr Q V) E) (P : Ops O V) (noValue : Key → E) (init : Named O V Q) (cond : Node O V Q)
    (body : Named O V Q) (hA : Args G init cond body) (W : Loop O V Q)
    (h : makeWhileLoop G P noValue init cond body = some (.ok W))
    (I : O → List D → D) (lit : V → D) (leaf ph : Key → D) (hT : TupleLaw P I lit) (k : Nat) :
    (argsAt I lit leaf ph W k).head? = some (I P.namedtupleMake (lit (P.fieldNames (sortKeys (body.map (·.1)))) ::
      (sortKeys (body.map (·.1))).map (varAt I lit leaf ph P init body k))) ∧
    condAt I lit leaf ph W k = value I lit leaf (varAt I lit leaf ph P init body k) cond := by
  rcases make_steps (P := P) (noValue := noValue) hA with ⟨x, hx, -⟩ | ⟨names, init', cond', body', hM, -, hR, hR', he⟩
  · rw [h] at hx; cases hx
  · rw [he] at h
    obtain ⟨⟨rest, h1⟩, h2⟩ := finish_value hM hA.bodyKeys (by
      intro k hk
      obtain ⟨e, he⟩ := Option.isSome_iff_exists.1 hk
      exact (hR.1 k e he).1) hA.initFree (by
      intro k hk
      obtain ⟨e, he⟩ := Option.isSome_iff_exists.1 hk
      exact (hR'.1 k e he).2.1) hR'.2 (fun x e he => (hR'.1 x e he).2.2) h I lit leaf ph hT k
    refine ⟨?_, h2⟩
    rw [h1]
    rfl

/-- Without reserved names a loop is made only if all variables have initial values and allowed names; nothing is undefined; if the operators accept
their arguments, it is made in exactly these cases, except for a constant variable named `loop_state`. -/
theorem while_accepts_partial (G : Lang O V (Attr Q V) E) (P : Ops O V) (noValue : Key → E) (init : Named O V Q) (cond : Node O V Q)
    (body : Named O V Q) (hA : Args G init cond body) :
    makeWhileLoop G P noValue init cond body ≠ none ∧
    (∀ W, makeWhileLoop G P noValue init cond body = some (.ok W) → Ready init cond body) ∧
    (Accepting G → ((∃ W, makeWhileLoop G P noValue init cond body = some (.ok W)) ↔
      Ready init cond body ∧ ¬ ((find init kLoopState).isSome = true ∧ find body kLoopState = none))) := by
  rcases make_steps (P := P) (noValue := noValue) hA with ⟨x, hx, hn⟩ | ⟨names, init', cond', body', hM, hnd, hR, hR', he⟩
  · rw [hx]
    refine ⟨by simp, (fun W h => nomatch h), fun hG => ⟨fun h => ?_, fun h => absurd h.1 (hn hG)⟩⟩
    obtain ⟨W, hW⟩ := h
    cases hW
  · rw [he]
    obtain ⟨m1, m2, m3⟩ := moved_find hM.body
    obtain ⟨f1, f2⟩ := finish_total (P := P) (noValue := noValue) hM hA.bodyKeys hnd (by
      intro k hk
      obtain ⟨e, he⟩ := Option.isSome_iff_exists.1 hk
      exact (hR'.1 k e he).2.1) hR'.2 (fun x e he => (hR'.1 x e he).2.2)
    refine ⟨f1, fun _ _ => hR, fun hG => ?_⟩
    rw [f2 hG, hM.init.other kLoopState (by unfold Reserved; decide)]
    have : find body' kLoopState = none ↔ find body kLoopState = none := by
      have := m2 kLoopState
      cases h1 : find body kLoopState <;> cases h2 : find body' kLoopState <;> rw [h1, h2] at this <;> simp at this ⊢
    rw [this]
    exact ⟨fun h => ⟨hR, h⟩, fun h => h.2⟩

end

/-! ## A concrete loop -/

/-- Numbers and tuples. -/
inductive Val
  | num (n : Int)
  | tup (l : List Val)

/-- The number. -/
def Val.int : Val → Int
  | .num n => n
  | .tup _ => 0

/-- The first field. -/
def Val.first : Val → Int
  | .tup (v :: _) => v.int
  | _ => 0

/-- The operators: tuples, fields, casts, types, addition and comparison. -/
def exI : Nat → List Val → Val
  | 0, _ :: vs => .tup vs
  | 1, [.tup l, .num i] => (l[i.toNat]?).getD (.num 0)
  | 2, v :: _ => v
  | 3, _ => .num 7
  | 4, [a, b] => .num (a.int + b.int)
  | 5, [a, b] => .num (if a.int < b.int then 1 else 0)
  | _, _ => .num 0

def exP : Ops Nat Int := ⟨0, 1, 2, 3, fun _ => 0, fun i => i, 1⟩

def exG : Lang Nat Int (Attr Nat Int) Nat := ⟨⟨none, none⟩, fun v => ⟨some 1, some v⟩, fun _ _ => .ok ⟨some 1, none⟩, 8⟩

theorem exLaw : TupleLaw exP exI Val.num := by
  intro names vs i v h
  show (vs[(i : Int).toNat]?).getD (.num 0) = v
  rw [Int.toNat_natCast, h]
  rfl

theorem exAccepting : Accepting exG := fun _ _ => ⟨_, rfl⟩

abbrev lf (k : Nat) : Node Nat Int Nat := .mk (.leaf [k]) ⟨none, none⟩ []
abbrev pl (k : Key) : Node Nat Int Nat := .mk (.placeholder k) ⟨none, none⟩ []
abbrev op2 (o : Nat) (a b : Node Nat Int Nat) : Node Nat Int Nat := .mk (.op o) ⟨some 1, none⟩ [a, b]
abbrev nm (n : Int) : Node Nat Int Nat := .mk (.literal n) ⟨some 1, some n⟩ []

/-- `a = 0, b = L.y`. -/
def exInit : Named Nat Int Nat := [([98], lf 121), ([97], nm 0)]
/-- `a = P.a + (L.x + L.x)`. -/
def exBody : Named Nat Int Nat := [([97], op2 4 (pl [97]) (op2 4 (lf 120) (lf 120)))]
/-- `P.a < P.b`. -/
def exCond : Node Nat Int Nat := op2 5 (pl [97]) (pl [98])

theorem wf_op2 {a b : Node Nat Int Nat} (o : Nat) (ha : WF exG a) (hb : WF exG b) : WF exG (op2 o a b) :=
  WF.op o _ _ (fun d hd => by
    simp only [List.mem_cons, List.not_mem_nil, or_false] at hd
    rcases hd with rfl | rfl
    · exact ha
    · exact hb) rfl

theorem ph_op2 {o : Nat} {a b : Node Nat Int Nat} {k : Key} : PhIn (op2 o a b) k ↔ PhIn a k ∨ PhIn b k := by
  rw [phIn_iff]
  simp [placeholderKey, Expr.label, Expr.deps]

theorem ph_pl {x k : Key} : PhIn (pl x) k ↔ x = k := by
  rw [phIn_iff]
  simp [placeholderKey, Expr.label, Expr.deps]

theorem ph_lf {x : Nat} {k : Key} : ¬ PhIn (lf x) k := by
  rw [phIn_iff]
  simp [placeholderKey, Expr.label, Expr.deps]

theorem exArgs : Args exG exInit exCond exBody := by
  refine ⟨?_, by decide, by decide, wf_op2 5 (WF.placeholder _) (WF.placeholder _), ?_, ?_⟩
  · intro k hk
    unfold exInit
    rw [find_cons, find_cons]
    split
    · rename_i h; subst h; exact absurd hk (by unfold Reserved; decide)
    split
    · rename_i h; subst h; exact absurd hk (by unfold Reserved; decide)
    rfl
  · intro k hk
    unfold exCond at hk
    rw [ph_op2, ph_pl, ph_pl] at hk
    rcases hk with rfl | rfl <;> (unfold Reserved; decide)
  · intro e he
    simp only [exBody, List.mem_singleton] at he
    subst he
    refine ⟨wf_op2 4 (WF.placeholder _) (wf_op2 4 (WF.leaf _) (WF.leaf _)), ?_⟩
    intro k hk
    rw [ph_op2, ph_op2, ph_pl] at hk
    rcases hk with rfl | h | h
    · unfold Reserved; decide
    · exact absurd h ph_lf
    · exact absurd h ph_lf

theorem exReady : Ready exInit exCond exBody := by
  refine ⟨?_, ?_⟩
  · intro x e he
    unfold exBody at he
    rw [find_cons] at he
    split at he
    · rename_i hx
      subst hx
      cases he
      refine ⟨by unfold Reserved; decide, by decide, ?_⟩
      intro k hk
      rw [ph_op2, ph_op2, ph_pl] at hk
      rcases hk with rfl | h | h
      · decide
      · exact absurd h ph_lf
      · exact absurd h ph_lf
    · cases he
  · intro k hk
    unfold exCond at hk
    rw [ph_op2, ph_pl, ph_pl] at hk
    rcases hk with rfl | rfl <;> decide

/-- The loop. -/
theorem exLoop : ∃ W, makeWhileLoop exG exP (fun _ => 9) exInit exCond exBody = some (.ok W) :=
  ((while_accepts_partial exG exP (fun _ => 9) exInit exCond exBody exArgs).2.2 exAccepting).2 ⟨exReady, by decide⟩

/-- The parameters: the state, the extracted `L.x + L.x`, and `b`. -/
example : (match makeWhileLoop exG exP (fun _ => 9) exInit exCond exBody with
    | some (.ok W) => some W.params
    | _ => none) = some [kLoopState, immName 0, [98]] := by decide +kernel

/-- With `x = 3`, `y = 10`: after two iterations `a = 12`, and the loop ends. -/
example : (varAt exI Val.num (fun k => .num (if k = [120] then 3 else 10)) (fun _ => .num 0) exP exInit exBody 2 [97]).int = 12 := by
  decide +kernel

example (leaf ph : Key → Val) (W : Loop Nat Int Nat) (h : makeWhileLoop exG exP (fun _ => 9) exInit exCond exBody = some (.ok W)) :
    condAt exI Val.num leaf ph W 2 = value exI Val.num leaf (varAt exI Val.num leaf ph exP exInit exBody 2) exCond :=
  (while_value_partial exG exP _ exInit exCond exBody exArgs W h exI Val.num leaf ph exLaw 2).2

/-- A constant variable named `loop_state` is rejected. -/
example : (match makeWhileLoop exG exP (fun _ => 9) ((kLoopState, nm 1) :: exInit) exCond exBody with
    | some (.error (.lambda _)) => true
    | _ => false) = true := by decide +kernel

/-! ## Reserved names -/

/-- The first field of the state after `k` iterations. -/
def exRun (init : Named Nat Int Nat) (cond : Node Nat Int Nat) (body : Named Nat Int Nat) (k : Nat) : Option Int :=
  match makeWhileLoop exG exP (fun _ => 9) init cond body with
  | some (.ok W) =>
    (argsAt exI Val.num (fun k => .num (if k = [120] then 3 else 10)) (fun _ => .num 0) W k).head?.map Val.first
  | _ => none

/-- Only the names of the body are checked for the reserved prefix: with a variable `_while_loop_immutable_0 = 100` in the initial
state the loop is made, but the extracted `L.x + L.x` gets its value: `a` grows by 100 rather than by 6. -/
theorem reserved_initial_counterexample :
    Ready ((immName 0, nm 100) :: exInit) exCond exBody ∧
    (varAt exI Val.num (fun k => .num (if k = [120] then 3 else 10)) (fun _ => .num 0) exP ((immName 0, nm 100) :: exInit) exBody 1
      [97]).int = 6 ∧
    exRun ((immName 0, nm 100) :: exInit) exCond exBody 1 = some 100 := by
  refine ⟨?_, by decide +kernel, by decide +kernel⟩
  obtain ⟨h1, h2⟩ := exReady
  have hf : ∀ k, (find exInit k).isSome = true → (find ((immName 0, nm 100) :: exInit) k).isSome = true := by
    intro k hk
    rw [find_cons]
    split
    · rfl
    · exact hk
  refine ⟨fun x e he => ?_, fun k hk => hf k (h2 k hk)⟩
  obtain ⟨q1, q2, q3⟩ := h1 x e he
  exact ⟨q1, hf x q2, fun k hk => hf k (q3 k hk)⟩

/-- A variable `_while_loop_immutable_0` without an initial value is accepted in the condition; it has the value of the extracted
expression. -/
theorem reserved_variable_counterexample :
    ¬ Ready exInit (op2 5 (pl [97]) (pl (immName 0))) exBody ∧
    ∃ W, makeWhileLoop exG exP (fun _ => 9) exInit (op2 5 (pl [97]) (pl (immName 0))) exBody = some (.ok W) := by
  refine ⟨?_, ?_⟩
  · rintro ⟨-, h⟩
    have := h (immName 0) (ph_op2.2 (Or.inr (ph_pl.2 rfl)))
    revert this
    decide +kernel
  · have h : (match makeWhileLoop exG exP (fun _ => 9) exInit (op2 5 (pl [97]) (pl (immName 0))) exBody with
      | some (.ok _) => true
      | _ => false) = true := by decide +kernel
    split at h
    · rename_i W hW; exact ⟨W, hW⟩
    · cases h

end Verif.While
