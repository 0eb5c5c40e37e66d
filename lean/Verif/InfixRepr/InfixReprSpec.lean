import Verif.InfixRepr.InfixReprModel

/-!
# How Python reads an expression

The grammar of expressions of the Python language reference (section 6, "Operator precedence"), with levels from the loosest (comparisons, 1) to the
tightest (attribute references and subscriptions, 8).
-/

namespace Verif.InfixRepr

/-- Level of a binary operator: comparisons, `|`, `&`, `+ -`, `* / // %`, and `**`, with unary operators between the last two at level 6. -/
def level : BinOp → Nat
  | .less | .lessEqual | .equal | .notEqual | .greaterEqual | .greater => 1
  | .presenceOr => 2
  | .presenceAnd => 3
  | .add | .subtract => 4
  | .multiply | .divide | .floordiv | .mod => 5
  | .pow => 7

/-- The level of the left operand: operators associate to the left, but comparisons do not associate and the left operand of `**` is a primary. -/
def leftReq : BinOp → Nat
  | .less | .lessEqual | .equal | .notEqual | .greaterEqual | .greater => 2
  | .pow => 8
  | op => level op

/-- The level of the right operand: the next one; that of `**` is a unary expression. -/
def rightReq : BinOp → Nat
  | .pow => 6
  | op => level op + 1

/-- The state of the reader: an expression of level at least `k` is to be read, or an expression of level `lvl` was read and is to be extended. -/
inductive State
  | start (k : Nat) (ts : List Tok)
  | extend (k : Nat) (e : Expr) (lvl : Nat) (ts : List Tok)

/-- The next token extends an expression of level `lvl`. -/
def Extends (k lvl : Nat) : List Tok → Prop
  | .bin op :: _ => k ≤ level op ∧ leftReq op ≤ lvl
  | .attr _ :: _ => 8 ≤ lvl
  | .lbr :: _ => 8 ≤ lvl
  | _ => False

/-- `Reads s e rest`: from the state `s` the expression `e` is read and `rest` is left.  An expression is extended as long as that is possible. -/
inductive Reads : State → Expr → List Tok → Prop
  | atom {k n ts e r} : Reads (.extend k (.atom n) 8 ts) e r → Reads (.start k (.atom n :: ts)) e r
  | paren {k ts x ts' e r} : Reads (.start 1 ts) x (.rpar :: ts') → Reads (.extend k x 8 ts') e r → Reads (.start k (.lpar :: ts)) e r
  | un {k op ts x ts' e r} : k ≤ 6 → Reads (.start 6 ts) x ts' → Reads (.extend k (.un op x) 6 ts') e r → Reads (.start k (.un op :: ts)) e r
  | bin {k x lvl op ts y ts' e r} : Extends k lvl (.bin op :: ts) → Reads (.start (rightReq op) ts) y ts' →
      Reads (.extend k (.bin op x y) (level op) ts') e r → Reads (.extend k x lvl (.bin op :: ts)) e r
  | attr {k x lvl n ts e r} : Extends k lvl (.attr n :: ts) → Reads (.extend k (.attr x n) 8 ts) e r → Reads (.extend k x lvl (.attr n :: ts)) e r
  | item {k x lvl ts i ts' e r} : Extends k lvl (.lbr :: ts) → Reads (.start 1 ts) i (.rbr :: ts') →
      Reads (.extend k (.item x i) 8 ts') e r → Reads (.extend k x lvl (.lbr :: ts)) e r
  | stop {k x lvl ts} : ¬ Extends k lvl ts → Reads (.extend k x lvl ts) x ts

end Verif.InfixRepr
