/-!
# Model of the operators that the peephole rules talk about

Types are pairs of a container and a scalar type.  Containers: scalar, `OptionalValue`, array (one kind of arrays, `DenseArray`
or `Array`).  Scalar types: `Unit`, `bool` and one more type `α` with arbitrary comparison and arithmetic functions, which
stands for every other scalar type.

An operator is modelled by three functions:
* `sig`: the overloads of the backend operator, with exactly these types;
* `infer`: the type inference of the expression operator, which also accepts arguments that have to be cast or broadcast;
* `el`: the functor, on one row; a scalar is a row that is present.

`run` applies an operator to values.  It includes the casts from scalars to optionals and the broadcasting of scalars and
optionals to arrays which the compiler inserts (casting.cc:83-109); casts between scalar types are not modelled.
That array operators apply the functor row by row is shown for the implementations in C54, C55, C70 and C74.
-/

namespace Verif.Rules

/-- Scalar types. -/
inductive Sc | unit | bool | num
  deriving DecidableEq, Repr

/-- Containers. -/
inductive Wr | sc | opt | arr
  deriving DecidableEq, Repr

/-- Types of values. -/
structure Ty where
  w : Wr
  s : Sc
  deriving DecidableEq, Repr

/-- Scalar values. -/
inductive Elem (α : Type)
  | u
  | b (v : Bool)
  | n (a : α)
  deriving DecidableEq, Repr

def Elem.sort : Elem α → Sc
  | .u => .unit
  | .b _ => .bool
  | .n _ => .num

/-- Values: the type and the rows; a scalar or optional has one row. -/
structure Val (α : Type) where
  ty : Ty
  rows : List (Option (Elem α))
  deriving DecidableEq, Repr

/-- Comparison and arithmetic of the other scalar type: `<`, `<=`, `==`, `!=`, `AddOp`, `MultiplyOp`. -/
structure Num (α : Type) where
  lt : α → α → Bool
  le : α → α → Bool
  eq : α → α → Bool
  ne : α → α → Bool
  add : α → α → α
  mul : α → α → α

/-- Operators, by name. -/
inductive Op
  | has | hasOpt | hasArr       -- core.has, core.has._optional, core.has._array
  | pnot | pnotB                -- core.presence_not, core.presence_not._builtin
  | pand | por | pandor         -- core.presence_and, core.presence_or, core._presence_and_or
  | whr | scw                   -- core.where, core._short_circuit_where
  | toOpt | toOptS              -- core.to_optional, core.to_optional._scalar
  | ceq | cne | clt | cle       -- core.equal, core.not_equal, core.less, core.less_equal
  | beq | bne | blt | ble | bgt | bge  -- bool.equal, bool.not_equal, bool.less, bool.less_equal, bool.greater, bool.greater_equal
  | bnot | band | bor | bif     -- bool.logical_not, bool.logical_and, bool.logical_or, bool.logical_if
  | add | mul | add4            -- math.add, math.multiply, math._add4
  deriving DecidableEq, Repr

/-! ## Types -/

/-- Overloads of the backend operators — qexpr/operators/core/BUILD:306-545, qexpr/operators/bool/BUILD:126-307,
qexpr/operators/dense_array/BUILD:169-235, qexpr/operators/array/BUILD:153-226, qexpr/operators/math/BUILD:166-190,
core/logic_operators.h:277-309.  `none`: there is no such overload, or the operator is not a backend operator. -/
def sig : Op → List Ty → Option Ty
  | .hasOpt, [⟨.opt, _⟩] => some ⟨.opt, .unit⟩
  | .hasArr, [⟨.arr, _⟩] => some ⟨.arr, .unit⟩
  | .pnotB, [⟨.opt, _⟩] => some ⟨.opt, .unit⟩
  | .pnotB, [⟨.arr, _⟩] => some ⟨.arr, .unit⟩
  | .pand, [⟨.sc, s⟩, ⟨.sc, .unit⟩] => some ⟨.sc, s⟩
  | .pand, [⟨.sc, s⟩, ⟨.opt, .unit⟩] => some ⟨.opt, s⟩
  | .pand, [⟨.opt, s⟩, ⟨.opt, .unit⟩] => some ⟨.opt, s⟩
  | .pand, [⟨.arr, s⟩, ⟨.arr, .unit⟩] => some ⟨.arr, s⟩
  | .por, [⟨.opt, s⟩, ⟨.opt, t⟩] => if s = t then some ⟨.opt, s⟩ else none
  | .por, [⟨.opt, s⟩, ⟨.sc, t⟩] => if s = t then some ⟨.sc, s⟩ else none
  | .por, [⟨.sc, s⟩, ⟨.opt, t⟩] => if s = t then some ⟨.sc, s⟩ else none
  | .por, [⟨.sc, s⟩, ⟨.sc, t⟩] => if s = t then some ⟨.sc, s⟩ else none
  | .por, [⟨.arr, s⟩, ⟨.arr, t⟩] => if s = t then some ⟨.arr, s⟩ else none
  | .por, [⟨.arr, s⟩, ⟨.opt, t⟩] => if s = t then some ⟨.arr, s⟩ else none
  | .pandor, [⟨.sc, s⟩, ⟨.opt, .unit⟩, ⟨.sc, t⟩] => if s = t then some ⟨.sc, s⟩ else none
  | .pandor, [⟨.sc, s⟩, ⟨.opt, .unit⟩, ⟨.opt, t⟩] => if s = t then some ⟨.opt, s⟩ else none
  | .pandor, [⟨.opt, s⟩, ⟨.opt, .unit⟩, ⟨.sc, t⟩] => if s = t then some ⟨.sc, s⟩ else none
  | .pandor, [⟨.opt, s⟩, ⟨.opt, .unit⟩, ⟨.opt, t⟩] => if s = t then some ⟨.opt, s⟩ else none
  | .whr, [⟨.opt, .unit⟩, a, b] => if a = b then some a else none
  | .whr, [⟨.arr, .unit⟩, ⟨.arr, s⟩, ⟨.arr, t⟩] => if s = t then some ⟨.arr, s⟩ else none
  | .scw, [⟨.opt, .unit⟩, a, b] => if a = b then some a else none
  | .toOptS, [⟨.sc, s⟩] => some ⟨.opt, s⟩
  | .ceq, [a, b] | .cne, [a, b] | .clt, [a, b] | .cle, [a, b] =>
    if a = b then some ⟨match a.w with | .arr => .arr | _ => .opt, .unit⟩ else none
  | .beq, [a, b] | .bne, [a, b] | .blt, [a, b] | .ble, [a, b] => if a = b then some ⟨a.w, .bool⟩ else none
  | .bnot, [⟨w, .bool⟩] => some ⟨w, .bool⟩
  | .band, [⟨w, .bool⟩, ⟨w', .bool⟩] | .bor, [⟨w, .bool⟩, ⟨w', .bool⟩] => if w = w' then some ⟨w, .bool⟩ else none
  | .bif, [⟨.opt, .bool⟩, a, b, c] => if a.w ≠ .arr ∧ a = b ∧ b = c then some a else none
  | .bif, [⟨.arr, .bool⟩, a, b, c] => if a.w ≠ .sc ∧ a = b ∧ b = c then some ⟨.arr, a.s⟩ else none
  | .add, [⟨w, .num⟩, ⟨w', .num⟩] | .mul, [⟨w, .num⟩, ⟨w', .num⟩] => if w = w' then some ⟨w, .num⟩ else none
  | .add4, [⟨w, .num⟩, ⟨w1, .num⟩, ⟨w2, .num⟩, ⟨w3, .num⟩] =>
    if w = w1 ∧ w1 = w2 ∧ w2 = w3 then some ⟨w, .num⟩ else none
  | _, _ => none

/-- `CommonQType` of containers — qtype/standard_type_properties/common_qtype.cc. -/
def Wr.max : Wr → Wr → Wr
  | .arr, _ => .arr
  | _, .arr => .arr
  | .opt, _ => .opt
  | _, .opt => .opt
  | .sc, .sc => .sc

/-- `common_qtype` for types with the same scalar type. -/
def common (a b : Ty) : Option Ty := if a.s = b.s then some ⟨a.w.max b.w, a.s⟩ else none

/-- Type inference of the expression operators — bootstrap_operators.cc:695-722 and 921-954,
type_meta_eval_strategies.cc:316-334, 360-397 and 430-450, py/arolla/operators/standard/core.py:45-123, 303-319, 436-459,
590-613 and 670-714, bool.py:26-239, math.py:1413-1427. -/
def infer : Op → List Ty → Option Ty
  | .has, [x] => some ⟨x.w, .unit⟩
  | .hasOpt, [⟨.opt, _⟩] => some ⟨.opt, .unit⟩
  | .hasArr, [⟨.arr, _⟩] => some ⟨.arr, .unit⟩
  | .pnot, [x] => some ⟨Wr.opt.max x.w, .unit⟩
  | .pnotB, [⟨.opt, _⟩] => some ⟨.opt, .unit⟩
  | .pnotB, [⟨.arr, _⟩] => some ⟨.arr, .unit⟩
  | .pand, [x, y] =>
    if y.s = .unit then some ⟨if y.w = .sc then x.w else (Wr.opt.max x.w).max y.w, x.s⟩ else none
  | .por, [x, y] =>
    if x.s = y.s then some ⟨if x.w = .arr ∨ y.w = .arr then .arr else if y.w = .sc then .sc else x.w, x.s⟩ else none
  | .pandor, [a, b, c] =>
    if b.s = .unit ∧ a.s = c.s ∧ a.w ≠ .arr ∧ b.w ≠ .arr ∧ c.w ≠ .arr then some ⟨c.w, a.s⟩ else none
  | .whr, [c, a, b] =>
    if c.s = .unit then (common a b).map (fun t => if c.w = .opt then t else ⟨t.w.max c.w, t.s⟩) else none
  | .scw, [c, a, b] => if c.s = .unit ∧ c.w ≠ .arr then common a b else none
  | .toOpt, [x] => some ⟨Wr.opt.max x.w, x.s⟩
  | .toOptS, [⟨.sc, s⟩] => some ⟨.opt, s⟩
  | .ceq, [a, b] | .cne, [a, b] | .clt, [a, b] | .cle, [a, b] => (common a b).map (fun t => ⟨Wr.opt.max t.w, .unit⟩)
  | .beq, [a, b] | .bne, [a, b] | .blt, [a, b] | .ble, [a, b] | .bgt, [a, b] | .bge, [a, b] =>
    (common a b).map (fun t => ⟨t.w, .bool⟩)
  | .bnot, [x] => if x.s = .bool then some x else none
  | .band, [x, y] | .bor, [x, y] => if x.s = .bool ∧ y.s = .bool then common x y else none
  | .bif, [c, a, b, m] =>
    if c.s = .bool then
      ((common a b).bind (fun t => common t m)).map (fun t => if c.w = .opt then t else ⟨t.w.max c.w, t.s⟩)
    else none
  | .add, [x, y] | .mul, [x, y] => if x.s = .num ∧ y.s = .num then common x y else none
  | .add4, [x, y, z, t] =>
    if x.s = .num ∧ y.s = .num ∧ z.s = .num ∧ t.s = .num then some ⟨((x.w.max y.w).max z.w).max t.w, .num⟩ else none
  | _, _ => none

/-! ## Functors -/

/-- `OptionalUnit{b}`. -/
def mask (v : Bool) : Option (Elem α) := if v then some .u else none

/-- `==`. -/
def eqE (N : Num α) : Elem α → Elem α → Bool
  | .u, .u => true
  | .b x, .b y => x == y
  | .n x, .n y => N.eq x y
  | _, _ => false
/-- `!=`. -/
def neE (N : Num α) : Elem α → Elem α → Bool
  | .u, .u => false
  | .b x, .b y => x != y
  | .n x, .n y => N.ne x y
  | _, _ => false
/-- `<`. -/
def ltE (N : Num α) : Elem α → Elem α → Bool
  | .b x, .b y => !x && y
  | .n x, .n y => N.lt x y
  | _, _ => false
/-- `<=`. -/
def leE (N : Num α) : Elem α → Elem α → Bool
  | .u, .u => true
  | .b x, .b y => !x || y
  | .n x, .n y => N.le x y
  | _, _ => false

/-- `lift_to_optional`: missing if an argument is missing. -/
def lift2 (f : Elem α → Elem α → Option (Elem α)) : Option (Elem α) → Option (Elem α) → Option (Elem α)
  | some x, some y => f x y
  | _, _ => none

/-- `LogicalAndOp` — bool/logic.h:31-46. -/
def andE : Option (Elem α) → Option (Elem α) → Option (Elem α)
  | some (.b l), r => if !l then some (.b false) else r
  | l, some (.b r) => if !r then some (.b false) else l
  | _, _ => none
/-- `LogicalOrOp` — bool/logic.h:52-68. -/
def orE : Option (Elem α) → Option (Elem α) → Option (Elem α)
  | some (.b l), r => if l then some (.b true) else r
  | l, some (.b r) => if r then some (.b true) else l
  | _, _ => none
/-- `LogicalNotOp` — bool/logic.h:72-75. -/
def notE : Option (Elem α) → Option (Elem α)
  | some (.b v) => some (.b (!v))
  | _ => none
/-- `LogicalIfOp` — bool/logic.h:79-102. -/
def ifE (c t f m : Option (Elem α)) : Option (Elem α) :=
  match c with
  | some (.b v) => if v then t else f
  | _ => m
/-- A numeric functor. -/
def numE (f : α → α → α) : Elem α → Elem α → Option (Elem α)
  | .n x, .n y => some (.n (f x y))
  | _, _ => none

/-- One row — core/logic_operators.h:39-275, bool/comparison.h:21-55, bool/logic.h, math/arithmetic.h:41-56;
`core.has` and `core.presence_not` of scalars: bootstrap_operators.cc:710-711, core.py:51-57; `bool.greater` and
`bool.greater_equal`: bool.py:88-119. -/
def el (N : Num α) : Op → List (Option (Elem α)) → Option (Elem α)
  | .has, [x] | .hasOpt, [x] | .hasArr, [x] => mask x.isSome
  | .pnot, [x] | .pnotB, [x] => mask (!x.isSome)
  | .pand, [x, y] => if y.isSome then x else none
  | .por, [x, y] => if x.isSome then x else y
  | .pandor, [a, b, c] => if b.isSome && a.isSome then a else c
  | .whr, [c, a, b] | .scw, [c, a, b] => if c.isSome then a else b
  | .toOpt, [x] | .toOptS, [x] => x
  | .ceq, [x, y] => lift2 (fun x y => mask (eqE N x y)) x y
  | .cne, [x, y] => lift2 (fun x y => mask (neE N x y)) x y
  | .clt, [x, y] => lift2 (fun x y => mask (ltE N x y)) x y
  | .cle, [x, y] => lift2 (fun x y => mask (ltE N x y || eqE N x y)) x y
  | .beq, [x, y] => lift2 (fun x y => some (.b (eqE N x y))) x y
  | .bne, [x, y] => lift2 (fun x y => some (.b (neE N x y))) x y
  | .blt, [x, y] => lift2 (fun x y => some (.b (ltE N x y))) x y
  | .ble, [x, y] => lift2 (fun x y => some (.b (leE N x y))) x y
  | .bgt, [x, y] => lift2 (fun x y => some (.b (ltE N x y))) y x
  | .bge, [x, y] => lift2 (fun x y => some (.b (leE N x y))) y x
  | .bnot, [x] => notE x
  | .band, [x, y] => andE x y
  | .bor, [x, y] => orE x y
  | .bif, [c, t, f, m] => ifE c t f m
  | .add, [x, y] => lift2 (numE N.add) x y
  | .mul, [x, y] => lift2 (numE N.mul) x y
  | .add4, [x, y, z, t] => lift2 (numE N.add) (lift2 (numE N.add) (lift2 (numE N.add) x y) z) t
  | _, _ => none

/-! ## Application to values -/

/-- Row `i` of a value after broadcasting. -/
def Val.row (v : Val α) (i : Nat) : Option (Elem α) :=
  match v.ty.w with
  | .arr => (v.rows[i]?).join
  | _ => (v.rows[0]?).join

/-- The sizes of the arrays have to agree; `none` is the error of the backend operator, `some none`: there are no arrays. -/
def commonSize : List (Val α) → Option (Option Nat)
  | [] => some none
  | v :: vs =>
    match commonSize vs with
    | none => none
    | some none => if v.ty.w = .arr then some (some v.rows.length) else some none
    | some (some n) => if v.ty.w = .arr ∧ v.rows.length ≠ n then none else some (some n)

/-- Application of an operator to values; `none` if the types are not accepted or the sizes differ. -/
def run (N : Num α) (o : Op) (args : List (Val α)) : Option (Val α) :=
  match infer o (args.map (·.ty)), commonSize args with
  | some t, some n => some ⟨t, (List.range (n.getD 1)).map (fun i => el N o (args.map (·.row i)))⟩
  | _, _ => none

/-! ## Patterns -/

/-- Patterns: placeholders, literals, operators with one to four arguments. -/
inductive Pat (α : Type)
  | var (k : Nat)
  | lit (v : Val α)
  | c1 (o : Op) (x : Pat α)
  | c2 (o : Op) (x y : Pat α)
  | c3 (o : Op) (x y z : Pat α)
  | c4 (o : Op) (x y z t : Pat α)

/-- Value of a pattern when the placeholders have values `ρ`. -/
def Pat.eval (N : Num α) (ρ : Nat → Val α) : Pat α → Option (Val α)
  | .var k => some (ρ k)
  | .lit v => some v
  | .c1 o x => do run N o [← x.eval N ρ]
  | .c2 o x y => do run N o [← x.eval N ρ, ← y.eval N ρ]
  | .c3 o x y z => do run N o [← x.eval N ρ, ← y.eval N ρ, ← z.eval N ρ]
  | .c4 o x y z t => do run N o [← x.eval N ρ, ← y.eval N ρ, ← z.eval N ρ, ← t.eval N ρ]

/-- Type of a pattern when the placeholders have types `τ`; `f` is `sig` or `infer`. -/
def Pat.type (f : Op → List Ty → Option Ty) (τ : Nat → Ty) : Pat α → Option Ty
  | .var k => some (τ k)
  | .lit v => some v.ty
  | .c1 o x => do f o [← x.type f τ]
  | .c2 o x y => do f o [← x.type f τ, ← y.type f τ]
  | .c3 o x y z => do f o [← x.type f τ, ← y.type f τ, ← z.type f τ]
  | .c4 o x y z t => do f o [← x.type f τ, ← y.type f τ, ← z.type f τ, ← t.type f τ]

end Verif.Rules
