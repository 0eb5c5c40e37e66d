import Verif.InfixRepr.InfixReprSpec

/-! # C172: the text of an expression has one reading, the expression -/

namespace Verif.InfixRepr

/-- The level of an expression. -/
def lvl : Expr → Nat
  | .atom _ => 8
  | .un _ _ => 6
  | .bin op _ _ => level op
  | .attr _ _ => 8
  | .item _ _ => 8

/-- What follows the text of an expression must be looser than its last operand. -/
def follow : Expr → Nat
  | .un _ _ => 6
  | .bin op _ _ => rightReq op
  | _ => 9

/-- The level of the next token, if it can extend an expression. -/
def headLevel : List Tok → Nat
  | .bin op :: _ => level op
  | .attr _ :: _ => 8
  | .lbr :: _ => 8
  | _ => 0

theorem stop_of {k l : Nat} {ts : List Tok} (hk : k ≤ 8) (h : headLevel ts < k) : ¬ Extends k l ts := by
  unfold Extends
  split
  · simp [headLevel] at h; omega
  · simp [headLevel] at h; omega
  · simp [headLevel] at h; omega
  · exact id

theorem level_bounds (op : BinOp) : 1 ≤ level op ∧ level op ≤ leftReq op ∧ leftReq op ≤ 8 ∧ 2 ≤ rightReq op ∧ rightReq op ≤ 6 ∧ level op ≤ 7 := by
  cases op <;> decide

theorem lvl_bounds (e : Expr) : 1 ≤ lvl e ∧ lvl e ≤ 8 ∧ 2 ≤ follow e := by
  cases e <;> simp only [lvl, follow] <;> try omega
  have := level_bounds (by assumption)
  omega

/-- The precedences of an expression that are compared. -/
theorem prec_left (e : Expr) : (repr e).left = match e with
    | .atom _ => -1
    | .un _ _ => 1
    | .bin op _ _ => (binPrec op).1
    | .attr _ _ => 0
    | .item _ _ => 0 := by
  cases e <;> rfl

theorem prec_right (e : Expr) : (repr e).right = match e with
    | .atom _ => -1
    | .un _ _ => 1
    | .bin op _ _ => (binPrec op).2
    | .attr _ _ => -1
    | .item _ _ => -1 := by
  cases e <;> rfl

/-- A left operand without brackets. -/
theorem left_ok {op : BinOp} {x : Expr} (h : (repr x).right < (binPrec op).1) : leftReq op ≤ lvl x ∧ level op < follow x := by
  rw [prec_right] at h
  cases x with
  | bin op' x y =>
    change (binPrec op').2 < (binPrec op).1 at h
    show leftReq op ≤ level op' ∧ level op < rightReq op'
    clear x y
    revert h
    cases op <;> cases op' <;> decide
  | un u x => revert h; cases op <;> simp [binPrec, leftReq, level, lvl, follow]
  | _ => revert h; cases op <;> simp [binPrec, leftReq, level, lvl, follow]

/-- A right operand without brackets. -/
theorem right_ok {op : BinOp} {y : Expr} (h : (repr y).left < (binPrec op).2) : rightReq op ≤ lvl y ∧ rightReq op ≤ follow y := by
  rw [prec_left] at h
  cases y with
  | bin op' x y =>
    change (binPrec op').1 < (binPrec op).2 at h
    show rightReq op ≤ level op' ∧ rightReq op ≤ rightReq op'
    clear x y
    revert h
    cases op <;> cases op' <;> decide
  | un u x => revert h; cases op <;> simp [binPrec, rightReq, level, lvl, follow]
  | _ => revert h; cases op <;> simp [binPrec, rightReq, level, lvl, follow]

theorem un_ok {op : UnOp} {x : Expr} (h : (repr x).left < (unPrec op).2) : 6 ≤ lvl x ∧ 6 ≤ follow x := by
  rw [prec_left] at h
  cases x with
  | bin op' x y => revert h; cases op' <;> simp [binPrec, unPrec]
  | un u x => simp [unPrec] at h
  | _ => simp [lvl, follow]

theorem primary_ok {x : Expr} (h : (repr x).right < 0) : lvl x = 8 ∧ follow x = 9 := by
  rw [prec_right] at h
  cases x with
  | bin op' x y => revert h; cases op' <;> simp [binPrec]
  | un u x => simp at h
  | _ => simp [lvl, follow]

theorem headLevel_le (ts : List Tok) : headLevel ts ≤ 8 := by
  unfold headLevel
  split <;> try omega
  have := level_bounds (by assumption)
  omega

/-- The binary case, for all forms of the operands. -/
theorem bin_str (op : BinOp) (x y : Expr) : (repr (.bin op x y)).str =
    (if (repr x).right < (binPrec op).1 then (repr x).str else paren (repr x).str) ++ .bin op ::
    (if (repr y).left < (binPrec op).2 then (repr y).str else paren (repr y).str) := by
  show (binRepr op (repr x) (repr y)).str = _
  unfold binRepr
  dsimp only
  by_cases h1 : (repr x).right < (binPrec op).1 <;> by_cases h2 : (repr y).left < (binPrec op).2 <;> simp [h1, h2]

/-- The text of an expression is read as the expression, and then it is extended with what follows. -/
theorem reads_repr : ∀ (e : Expr) {k : Nat} {rest : List Tok} {x : Expr} {r : List Tok}, k ≤ lvl e → headLevel rest < follow e →
    Reads (.extend k e (lvl e) rest) x r → Reads (.start k ((repr e).str ++ rest)) x r
  | .atom n, k, rest, x, r, _, _, h => .atom h
  | .un op y, k, rest, x, r, hk, hf, h => by
    show Reads (.start k ((if (repr y).left < (unPrec op).2 then .un op :: (repr y).str else .un op :: paren (repr y).str) ++ rest)) x r
    have hf' : headLevel rest < 6 := hf
    by_cases hy : (repr y).left < (unPrec op).2
    · rw [if_pos hy]
      obtain ⟨h1, h2⟩ := un_ok hy
      exact .un hk (reads_repr y h1 (by omega) (.stop (stop_of (by omega) hf'))) h
    · rw [if_neg hy]
      refine .un hk (?_ : Reads (.start 6 (paren (repr y).str ++ rest)) y rest) h
      have : paren (repr y).str ++ rest = .lpar :: ((repr y).str ++ .rpar :: rest) := by simp [paren]
      rw [this]
      have hb := lvl_bounds y
      exact .paren (reads_repr y hb.1 (by simp [headLevel]; omega) (.stop (by simp [Extends]))) (.stop (stop_of (by omega) hf'))
  | .bin op y z, k, rest, x, r, hk, hf, h => by
    have hl := level_bounds op
    have hk' : k ≤ level op := hk
    have hf' : headLevel rest < rightReq op := hf
    rw [bin_str]
    -- the right operand
    have hz : Reads (.start (rightReq op) ((if (repr z).left < (binPrec op).2 then (repr z).str else paren (repr z).str) ++ rest)) z rest := by
      have hstop : ∀ l, Reads (.extend (rightReq op) z l rest) z rest := fun l => .stop (stop_of (by omega) hf')
      by_cases hc : (repr z).left < (binPrec op).2
      · rw [if_pos hc]
        obtain ⟨h1, h2⟩ := right_ok hc
        exact reads_repr z h1 (by omega) (hstop _)
      · rw [if_neg hc]
        have : paren (repr z).str ++ rest = .lpar :: ((repr z).str ++ .rpar :: rest) := by simp [paren]
        rw [this]
        have hb := lvl_bounds z
        exact .paren (reads_repr z hb.1 (by simp [headLevel]; omega) (.stop (by simp [Extends]))) (hstop _)
    by_cases hc : (repr y).right < (binPrec op).1
    · rw [if_pos hc, List.append_assoc, List.cons_append]
      obtain ⟨h1, h2⟩ := left_ok hc
      exact reads_repr y (by omega) h2 (.bin ⟨hk', h1⟩ hz h)
    · rw [if_neg hc]
      have : (paren (repr y).str ++ .bin op :: (if (repr z).left < (binPrec op).2 then (repr z).str else paren (repr z).str)) ++ rest =
          .lpar :: ((repr y).str ++ .rpar :: (.bin op :: ((if (repr z).left < (binPrec op).2 then (repr z).str else paren (repr z).str) ++ rest))) := by
        simp [paren]
      rw [this]
      have hb := lvl_bounds y
      exact .paren (reads_repr y hb.1 (by simp [headLevel]; omega) (.stop (by simp [Extends]))) (.bin ⟨hk', by omega⟩ hz h)
  | .attr y n, k, rest, x, r, hk, hf, h => by
    show Reads (.start k ((if (repr y).right < 0 then (repr y).str ++ [.attr n] else paren (repr y).str ++ [.attr n]) ++ rest)) x r
    by_cases hc : (repr y).right < 0
    · rw [if_pos hc, List.append_assoc]
      obtain ⟨h1, h2⟩ := primary_ok hc
      exact reads_repr y (by rw [h1]; exact hk) (by rw [h2]; simp [headLevel]) (.attr (by show 8 ≤ lvl y; omega) h)
    · rw [if_neg hc]
      have : paren (repr y).str ++ [.attr n] ++ rest = .lpar :: ((repr y).str ++ .rpar :: (.attr n :: rest)) := by simp [paren]
      rw [this]
      have hb := lvl_bounds y
      exact .paren (reads_repr y hb.1 (by simp [headLevel]; omega) (.stop (by simp [Extends]))) (.attr (Nat.le_refl 8) h)
  | .item y i, k, rest, x, r, hk, hf, h => by
    show Reads (.start k ((if (repr y).right < 0 then (repr y).str ++ .lbr :: (repr i).str ++ [.rbr] else
      paren (repr y).str ++ .lbr :: (repr i).str ++ [.rbr]) ++ rest)) x r
    have hi : Reads (.start 1 ((repr i).str ++ .rbr :: rest)) i (.rbr :: rest) := by
      have hb := lvl_bounds i
      exact reads_repr i hb.1 (by simp [headLevel]; omega) (.stop (by simp [Extends]))
    by_cases hc : (repr y).right < 0
    · have : (repr y).str ++ .lbr :: (repr i).str ++ [.rbr] ++ rest = (repr y).str ++ (.lbr :: ((repr i).str ++ .rbr :: rest)) := by simp
      rw [if_pos hc, this]
      obtain ⟨h1, h2⟩ := primary_ok hc
      exact reads_repr y (by rw [h1]; exact hk) (by rw [h2]; simp [headLevel]) (.item (by show 8 ≤ lvl y; omega) hi h)
    · have : paren (repr y).str ++ .lbr :: (repr i).str ++ [.rbr] ++ rest =
          .lpar :: ((repr y).str ++ .rpar :: (.lbr :: ((repr i).str ++ .rbr :: rest))) := by simp [paren]
      rw [if_neg hc, this]
      have hb := lvl_bounds y
      exact .paren (reads_repr y hb.1 (by simp [headLevel]; omega) (.stop (by simp [Extends]))) (.item (Nat.le_refl 8) hi h)

/-- **A text has at most one reading.** -/
theorem reads_unique {s : State} {e e' : Expr} {r r' : List Tok} (h : Reads s e r) (h' : Reads s e' r') : e = e' ∧ r = r' := by
  induction h generalizing e' r' with
  | atom _ ih => cases h' with | atom h' => exact ih h'
  | paren _ _ ih1 ih2 =>
    cases h' with
    | paren h1 h2 =>
      obtain ⟨rfl, e⟩ := ih1 h1
      cases e
      exact ih2 h2
  | un _ _ _ ih1 ih2 =>
    cases h' with
    | un _ h1 h2 =>
      obtain ⟨rfl, rfl⟩ := ih1 h1
      exact ih2 h2
  | bin hx _ _ ih1 ih2 =>
    cases h' with
    | bin _ h1 h2 =>
      obtain ⟨rfl, rfl⟩ := ih1 h1
      exact ih2 h2
    | stop h => exact absurd hx h
  | attr hx _ ih =>
    cases h' with
    | attr _ h1 => exact ih h1
    | stop h => exact absurd hx h
  | item hx _ _ ih1 ih2 =>
    cases h' with
    | item _ h1 h2 =>
      obtain ⟨rfl, e⟩ := ih1 h1
      cases e
      exact ih2 h2
    | stop h => exact absurd hx h
  | stop hx =>
    cases h' with
    | bin h _ _ => exact absurd h hx
    | attr h _ => exact absurd h hx
    | item h _ _ => exact absurd h hx
    | stop _ => exact ⟨rfl, rfl⟩

/-- **The text of an expression is read as this expression**, completely, by the rules of Python, and in no other way. -/
theorem repr_reads (e : Expr) : Reads (.start 1 (repr e).str) e [] ∧ ∀ e' r, Reads (.start 1 (repr e).str) e' r → e' = e ∧ r = [] := by
  have hb := lvl_bounds e
  have h : Reads (.start 1 ((repr e).str ++ [])) e [] := reads_repr e hb.1 (by simp [headLevel]; omega) (.stop (by simp [Extends]))
  rw [List.append_nil] at h
  refine ⟨h, ?_⟩
  intro e' r h'
  obtain ⟨h1, h2⟩ := reads_unique h' h
  exact ⟨h1, h2⟩

/-- **Different expressions have different texts.** -/
theorem repr_injective {e e' : Expr} (h : (repr e).str = (repr e').str) : e = e' := by
  have h1 := (repr_reads e).1
  rw [h] at h1
  exact ((repr_reads e').2 e [] h1).1

/-! ## Brackets are not left out of what needs them, and are left out elsewhere -/

example : (repr (.bin .multiply (.bin .add (.atom 0) (.atom 1)) (.un .neg (.attr (.atom 2) 5)))).str =
    [.lpar, .atom 0, .bin .add, .atom 1, .rpar, .bin .multiply, .un .neg, .atom 2, .attr 5] ∧
    (repr (.bin .pow (.un .neg (.atom 0)) (.bin .pow (.atom 1) (.un .neg (.atom 2))))).str =
      [.lpar, .un .neg, .atom 0, .rpar, .bin .pow, .atom 1, .bin .pow, .un .neg, .atom 2] ∧
    (repr (.bin .subtract (.atom 0) (.bin .subtract (.atom 1) (.atom 2)))).str =
      [.atom 0, .bin .subtract, .lpar, .atom 1, .bin .subtract, .atom 2, .rpar] ∧
    (repr (.bin .less (.bin .less (.atom 0) (.atom 1)) (.bin .presenceOr (.atom 1) (.atom 2)))).str =
      [.lpar, .atom 0, .bin .less, .atom 1, .rpar, .bin .less, .atom 1, .bin .presenceOr, .atom 2] := by decide +kernel

/-- Python reads `-a ** b` as `-(a ** b)`. -/
example : Reads (.start 1 [.un .neg, .atom 0, .bin .pow, .atom 1]) (.un .neg (.bin .pow (.atom 0) (.atom 1))) [] :=
  .un (by decide) (.atom (.bin ⟨by decide, by decide⟩ (.atom (.stop (by simp [Extends]))) (.stop (by simp [Extends])))) (.stop (by simp [Extends]))

end Verif.InfixRepr
