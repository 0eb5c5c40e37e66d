/-!
# Model of the text of expressions with infix operators

`arolla/expr/operator_repr_functions.cc` and the precedences of `arolla/util/repr.h`.

* A text is a list of tokens: the symbols of the operators, brackets, and atoms.
* Atoms are leaves, placeholders and everything else that is printed with the highest precedence, as are calls `M.op(...)` of other operators, with
  their arguments.  Literals with another precedence (negative numbers), slices and source locations are not modelled.
* Operators have the number of arguments that the functions require; otherwise the node is printed as a call.
-/

namespace Verif.InfixRepr

inductive UnOp
  | pos | neg | presenceNot
  deriving DecidableEq

inductive BinOp
  | pow | multiply | divide | floordiv | mod | add | subtract | presenceAnd | presenceOr
  | less | lessEqual | equal | notEqual | greaterEqual | greater
  deriving DecidableEq

inductive Expr
  | atom (n : Nat)
  | un (op : UnOp) (x : Expr)
  | bin (op : BinOp) (x y : Expr)
  | attr (x : Expr) (name : Nat)
  | item (x i : Expr)
  deriving DecidableEq

/-- Tokens: `attr` is a dot with the name. -/
inductive Tok
  | atom (n : Nat)
  | un (op : UnOp)
  | bin (op : BinOp)
  | attr (name : Nat)
  | lpar | rpar | lbr | rbr
  deriving DecidableEq

/-- `ReprToken` — repr.h:32-85. -/
structure Token where
  str : List Tok
  left : Int
  right : Int

/-- The precedences of `kUnaryInfixOps` — operator_repr_functions.cc:54-59, repr.h:62. -/
def unPrec (_ : UnOp) : Int × Int := (1, 1)

/-- The precedences of `kBinaryInfixOps` — operator_repr_functions.cc:61-81, repr.h:66-78. -/
def binPrec : BinOp → Int × Int
  | .pow => (1, 2)
  | .multiply | .divide | .floordiv | .mod => (3, 2)
  | .add | .subtract => (5, 4)
  | .presenceAnd => (9, 8)
  | .presenceOr => (11, 10)
  | .less | .lessEqual | .equal | .notEqual | .greaterEqual | .greater => (12, 12)

/-- In brackets. -/
def paren (s : List Tok) : List Tok := .lpar :: s ++ [.rpar]

/-- `UnaryReprFn` — operator_repr_functions.cc:102-111. -/
def unRepr (op : UnOp) (x : Token) : Token :=
  ⟨if x.left < (unPrec op).2 then .un op :: x.str else .un op :: paren x.str, (unPrec op).1, (unPrec op).2⟩

/-- `BinaryReprFn` — operator_repr_functions.cc:122-142. -/
def binRepr (op : BinOp) (x y : Token) : Token :=
  let leftPrecedence := x.right < (binPrec op).1
  let rightPrecedence := y.left < (binPrec op).2
  let str :=
    if leftPrecedence ∧ rightPrecedence then x.str ++ .bin op :: y.str
    else if leftPrecedence ∧ ¬ rightPrecedence then x.str ++ .bin op :: paren y.str
    else if ¬ leftPrecedence ∧ rightPrecedence then paren x.str ++ .bin op :: y.str
    else paren x.str ++ .bin op :: paren y.str
  ⟨str, (binPrec op).1, (binPrec op).2⟩

/-- `GetAttrReprFn` — operator_repr_functions.cc:159-170. -/
def attrRepr (x : Token) (name : Nat) : Token :=
  ⟨if x.right < 0 then x.str ++ [.attr name] else paren x.str ++ [.attr name], 0, -1⟩

/-- `GetItemReprFn` without slices — operator_repr_functions.cc:227-239. -/
def itemRepr (x i : Token) : Token :=
  ⟨if x.right < 0 then x.str ++ .lbr :: i.str ++ [.rbr] else paren x.str ++ .lbr :: i.str ++ [.rbr], 0, -1⟩

/-- `FormatPretty` for expressions without statements — expr_debug_string.cc:247-261, 284-289. -/
def repr : Expr → Token
  | .atom n => ⟨[.atom n], -1, -1⟩
  | .un op x => unRepr op (repr x)
  | .bin op x y => binRepr op (repr x) (repr y)
  | .attr x n => attrRepr (repr x) n
  | .item x i => itemRepr (repr x) (repr i)

end Verif.InfixRepr
