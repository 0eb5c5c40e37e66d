/-!
# Model of the peephole rules for `core.const_with_shape`

`arolla/expr/optimization/peephole_optimizations/const_with_shape.cc` and the rule for `core.const_with_shape` of `short_circuit_where.cc`.

Scalar values are of any type `X`; a row is a present or missing scalar.  A pointwise operator is a function of rows that may fail (`none`), e.g.
`math.floordiv` for a divisor of 0 or `core.to_int32` for a number out of range; on arrays it is applied row by row, scalars and optionals are
broadcast to the shape of the other argument (C54, C55, C70, C74; casting.cc), and one failing row fails the evaluation.  Containers of scalars and
optionals are not told apart.  `none` is a failed evaluation or a type error.
-/

namespace Verif.ConstShape

variable {X : Type}

/-- Values. -/
inductive Val (X : Type)
  | row (r : Option X)
  | arr (rows : List (Option X))
  | shape (n : Nat)
  deriving DecidableEq

/-- What pointwise operators compute, by name. -/
structure Sem (X : Type) where
  f1 : String → Option X → Option (Option X)
  f2 : String → Option X → Option X → Option (Option X)

/-- Names of the backend operators behind an operator: `core.has._array` and `core.has._optional` do what `core.has` does, and so on
(core.py:303-319, bootstrap_operators.cc:695-722). -/
def baseName (name : String) : String :=
  if name = "core.has._array" ∨ name = "core.has._optional" then "core.has"
  else if name = "core.presence_not._builtin" then "core.presence_not"
  else if name = "core.to_optional._scalar" then "core.to_optional"
  else name

/-- All rows, or a failure. -/
def mapRows (f : Option X → Option (Option X)) : List (Option X) → Option (List (Option X))
  | [] => some []
  | r :: rest =>
    match f r, mapRows f rest with
    | some y, some ys => some (y :: ys)
    | _, _ => none

def zipRows (f : Option X → Option X → Option (Option X)) : List (Option X) → List (Option X) → Option (List (Option X))
  | [], [] => some []
  | a :: as, b :: bs =>
    match f a b, zipRows f as bs with
    | some y, some ys => some (y :: ys)
    | _, _ => none
  | _, _ => none

def apply1 (f : Option X → Option (Option X)) : Val X → Option (Val X)
  | .row r => (f r).map .row
  | .arr l => (mapRows f l).map .arr
  | .shape _ => none

def apply2 (f : Option X → Option X → Option (Option X)) : Val X → Val X → Option (Val X)
  | .row a, .row b => (f a b).map .row
  | .arr l, .arr m => (zipRows f l m).map .arr
  | .arr l, .row b => (zipRows f l (List.replicate l.length b)).map .arr
  | .row a, .arr m => (zipRows f (List.replicate m.length a) m).map .arr
  | _, _ => none

/-- `core.const_with_shape` for a shape of arrays, `core.const_with_shape._array_shape` — core.py:377-393. -/
def constWithShape : Val X → Val X → Option (Val X)
  | .shape n, .row r => some (.arr (List.replicate n r))
  | _, _ => none

/-- `core._array_shape_of`. -/
def arrayShapeOf : Val X → Option (Val X)
  | .arr l => some (.shape l.length)
  | _ => none

/-- A branch of a conditional as an array of `n` rows. -/
def broadcast (n : Nat) : Val X → Option (List (Option X))
  | .row r => some (List.replicate n r)
  | .arr l => if l.length = n then some l else none
  | .shape _ => none

/-- `core._short_circuit_where` — core.py:670-684: the type is the common type of the branches, and only one of them is evaluated. -/
def shortCircuitWhere : Val X → Val X → Val X → Option (Val X)
  | .row c, .row a, .row b => some (.row (if c.isSome then a else b))
  | .row c, .arr l, .arr m => some (.arr (if c.isSome then l else m))
  | .row c, .arr l, .row b => some (.arr (if c.isSome then l else List.replicate l.length b))
  | .row c, .row a, .arr m => some (.arr (if c.isSome then List.replicate m.length a else m))
  | _, _, _ => none

/-- Rows of `core.where` for a condition that is an array. -/
def whereRows : List (Option X) → List (Option X) → List (Option X) → List (Option X)
  | c :: cs, a :: as, b :: bs => (if c.isSome then a else b) :: whereRows cs as bs
  | _, _, _ => []

/-- `core.where` — core.py:590-613. -/
def where3 (c x y : Val X) : Option (Val X) :=
  match c with
  | .arr cs =>
    match broadcast cs.length x, broadcast cs.length y with
    | some l, some m => some (.arr (whereRows cs l m))
    | _, _ => none
  | c => shortCircuitWhere c x y

/-- Patterns. -/
inductive Pat
  | var (name : String)
  | c1 (op : String) (x : Pat)
  | c2 (op : String) (x y : Pat)
  | c3 (op : String) (x y z : Pat)

def eval1 (s : Sem X) (op : String) (v : Val X) : Option (Val X) :=
  if op = "core._array_shape_of" then arrayShapeOf v else apply1 (s.f1 (baseName op)) v

def eval2 (s : Sem X) (op : String) (v w : Val X) : Option (Val X) :=
  if op = "core.const_with_shape" ∨ op = "core.const_with_shape._array_shape" then constWithShape v w else apply2 (s.f2 (baseName op)) v w

def eval3 (op : String) (v w u : Val X) : Option (Val X) :=
  if op = "core.where" then where3 v w u else if op = "core._short_circuit_where" then shortCircuitWhere v w u else none

/-- Evaluation of a pattern. -/
def Pat.eval (s : Sem X) (env : String → Val X) : Pat → Option (Val X)
  | .var n => some (env n)
  | .c1 op x => (x.eval s env).bind (eval1 s op)
  | .c2 op x y => (x.eval s env).bind fun v => (y.eval s env).bind fun w => eval2 s op v w
  | .c3 op x y z => (x.eval s env).bind fun v => (y.eval s env).bind fun w => (z.eval s env).bind fun u => eval3 op v w u

/-- A rule: the two patterns and the variables that must be scalars or optionals (`IsBaseQType`, `Is<OptionalUnit>`). -/
structure Rule where
  src : Pat
  dst : Pat
  base : List String

/-- `kUnaryPointwiseOps` — const_with_shape.cc:39-71. -/
def unaryOps : List (String × String) :=
  [("bool.logical_not", "bool.logical_not"), ("core.has._array", "core.has"), ("core.has._optional", "core.has"),
    ("core.presence_not._builtin", "core.presence_not"), ("core.to_bool", "core.to_bool"), ("core.to_float32", "core.to_float32"),
    ("core.to_float64", "core.to_float64"), ("core.to_int32", "core.to_int32"), ("core.to_int64", "core.to_int64"),
    ("core.to_optional._scalar", "core.to_optional"), ("core.to_uint64", "core.to_uint64"), ("math.abs", "math.abs"), ("math.ceil", "math.ceil"),
    ("math.exp", "math.exp"), ("math.expm1", "math.expm1"), ("math.floor", "math.floor"), ("math.is_finite", "math.is_finite"),
    ("math.is_inf", "math.is_inf"), ("math.is_nan", "math.is_nan"), ("math.log", "math.log"), ("math.log10", "math.log10"),
    ("math.log1p", "math.log1p"), ("math.log2", "math.log2"), ("math.logit", "math.logit"), ("math.neg", "math.neg"), ("math.pos", "math.pos"),
    ("math.round", "math.round"), ("math.sigmoid", "math.sigmoid"), ("math.sign", "math.sign")]

/-- `kBinaryPointwiseOps` — const_with_shape.cc:73-98. -/
def binaryOps : List (String × String) :=
  [("bool.equal", "bool.equal"), ("bool.less", "bool.less"), ("bool.less_equal", "bool.less_equal"), ("bool.logical_and", "bool.logical_and"),
    ("bool.logical_or", "bool.logical_or"), ("bool.not_equal", "bool.not_equal"), ("core.equal", "core.equal"), ("core.less", "core.less"),
    ("core.less_equal", "core.less_equal"), ("core.not_equal", "core.not_equal"), ("core.presence_and", "core.presence_and"),
    ("core.presence_or", "core.presence_or"), ("math.add", "math.add"), ("math.divide", "math.divide"), ("math.floordiv", "math.floordiv"),
    ("math.fmod", "math.fmod"), ("math.max", "math.max"), ("math.min", "math.min"), ("math.mod", "math.mod"), ("math.multiply", "math.multiply"),
    ("math.pow", "math.pow"), ("math.subtract", "math.subtract")]

/-- `AddUnaryPointwiseOpOptimizations` — const_with_shape.cc:100-117. -/
def unaryRule (p : String × String) : Rule :=
  ⟨.c1 p.1 (.c2 "core.const_with_shape._array_shape" (.var "shape") (.var "value")),
    .c2 "core.const_with_shape" (.var "shape") (.c1 p.2 (.var "value")), []⟩

/-- `AddBinaryPointwiseOpOptimizations` — const_with_shape.cc:123-162. -/
def binaryRules (p : String × String) : List Rule :=
  let dst : Pat := .c2 "core.const_with_shape" (.var "shape") (.c2 p.2 (.var "a") (.var "b"))
  let ea : Pat := .c2 "core.const_with_shape._array_shape" (.var "shape") (.var "a")
  let eb : Pat := .c2 "core.const_with_shape._array_shape" (.var "shape") (.var "b")
  [⟨.c2 p.1 ea eb, dst, []⟩, ⟨.c2 p.1 ea (.var "b"), dst, ["b"]⟩, ⟨.c2 p.1 (.var "a") eb, dst, ["a"]⟩]

/-- `AddArrayShapeOfOptimizations` — const_with_shape.cc:164-192. -/
def shapeOfRules : List Rule :=
  [⟨.c1 "core._array_shape_of" (.c1 "core.has._array" (.c2 "core.const_with_shape._array_shape" (.var "shape") (.var "a"))), .var "shape", []⟩,
    ⟨.c1 "core._array_shape_of" (.c2 "core.const_with_shape._array_shape" (.var "shape") (.var "a")), .var "shape", []⟩]

/-- The rule of `AddCoreWhereOptimizations` — short_circuit_where.cc:60-74. -/
def whereRule : Rule :=
  ⟨.c3 "core.where" (.c2 "core.const_with_shape._array_shape" (.var "shape") (.var "cond")) (.var "x") (.var "y"),
    .c3 "core._short_circuit_where" (.var "cond") (.var "x") (.var "y"), ["cond"]⟩

/-- `ConstWithShapeOptimizations` — const_with_shape.cc:196-202, and the rule for conditionals. -/
def rules : List Rule := shapeOfRules ++ unaryOps.map unaryRule ++ binaryOps.flatMap binaryRules ++ [whereRule]

end Verif.ConstShape
