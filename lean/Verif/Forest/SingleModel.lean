import Verif.Forest.BitmaskModel

/-!
# Model of the piecewise constant evaluators of `single_input_eval.{h,cc}`

In `arolla/decision_forest/pointwise_evaluation/`; the construction of the internal evaluator from trees is in
`EvaluatorModel`, here it is a function `ev`.

* A finite `float` is an integer multiple of 2^-149; sum and half of `float`s are rounded to nearest, ties to even, to 24
  significant bits and to a multiple of 2^-149, and overflow to infinity (`FLT_EVAL_METHOD` 0).
* Overflow of the sum of two `int64_t` is undefined behaviour (`none`).
* `std::sort` is an oracle.  The values have the type `M`; rounding of sums of values is not modelled.
-/

namespace Verif.Forest

/-! ### Arithmetic of `float` -/

/-- Round to 24 significant bits, ties to even. -/
def roundNat (n : Nat) : Nat :=
  let e := n.log2 + 1 - 24
  let q := n / 2 ^ e
  let r := n % 2 ^ e
  if 2 * r < 2 ^ e ∨ (2 * r = 2 ^ e ∧ q % 2 = 0) then q * 2 ^ e else (q + 1) * 2 ^ e

/-- `FLT_MAX` = (2^24 - 1) * 2^104, in units of 2^-149. -/
def maxF : Nat := (2 ^ 24 - 1) * 2 ^ 253

/-- The `float` nearest to a multiple of 2^-149. -/
def Fl.round (n : Int) : Fl :=
  let m := roundNat n.natAbs
  if m > maxF then (if n < 0 then .ninf else .pinf) else .num (if n < 0 then -(m : Int) else m)

/-- `a + b` on floats. -/
def Fl.add : Fl → Fl → Fl
  | .nan, _ => .nan
  | _, .nan => .nan
  | .ninf, .pinf => .nan
  | .pinf, .ninf => .nan
  | .ninf, _ => .ninf
  | _, .ninf => .ninf
  | .pinf, _ => .pinf
  | _, .pinf => .pinf
  | .num a, .num b => .round (a + b)

/-- `a / 2` on floats: exact unless the last bit of a subnormal number is lost. -/
def Fl.half : Fl → Fl
  | .num n => .num (if n % 2 = 0 then n / 2 else if n / 2 % 2 = 0 then n / 2 else n / 2 + 1)
  | a => a

/-! ### The two instantiations of the templates -/

/-- What the templates use of `T`. -/
structure NumKind (T : Type) where
  lt : T → T → Bool
  eq : T → T → Bool
  /-- `is_nan` — single_input_eval.cc:93-100 -/
  nan : T → Bool
  /-- `static_cast<T>(0)` -/
  zero : T
  /-- `std::numeric_limits<T>::lowest()` -/
  lowest : T
  /-- `std::numeric_limits<T>::max()` -/
  max : T
  /-- `(left + right) / 2`; `none` is undefined behaviour -/
  mid : T → T → Option T
  /-- `AddSplitPoints` — single_input_eval.cc:49-76; `none` is the error "not supported" -/
  points : Cond → Option (List T)
  /-- A frame in which every input slot is the slot with this value — single_input_eval.cc:117-120, 131-134. -/
  frame : Option T → Env
  /-- Reading the input slot. -/
  read : Env → Nat → Option T

/-- The bounds of an interval as split points — single_input_eval.cc:63-70. -/
def intervalPoints (l r : Fl) : List Fl :=
  (if !Fl.eq l .ninf then [l] else []) ++ (if !Fl.eq r .pinf && !Fl.eq r l then [r] else [])

/-- `T = float`. -/
def f32Kind : NumKind Fl where
  lt := Fl.lt
  eq := Fl.eq
  nan v := decide (v = .nan)
  zero := .num 0
  lowest := .num (-maxF)
  max := .num maxF
  mid l r := some (Fl.half (Fl.add l r))
  points
    | .setF32 _ vs _ => some vs
    | .interval _ l r => some (intervalPoints l r)
    | _ => none
  frame v := ⟨fun _ => v, fun _ => none, fun _ => false⟩
  read env id := env.f id

/-- `T = int64_t`. -/
def i64Kind : NumKind Int where
  lt a b := decide (a < b)
  eq a b := decide (a = b)
  nan _ := false
  zero := 0
  lowest := -2 ^ 63
  max := 2 ^ 63 - 1
  mid l r := (i64 (l + r)).map (Int.tdiv · 2)
  points
    | .setI64 _ vs _ => some vs
    | _ => none
  frame v := ⟨fun _ => none, fun _ => v, fun _ => false⟩
  read env id := env.i id

/-! ### Split points -/

/-- The two loops of `GetSplitPoints` — single_input_eval.cc:81-86. -/
def allPoints {T : Type} (k : NumKind T) : List Cond → Option (List T)
  | [] => some []
  | c :: rest => do
    let ps ← k.points c
    let qs ← allPoints k rest
    pure (ps ++ qs)

/-- `std::unique`: the first argument is the last element kept. -/
def uniqueLoop {T : Type} (eq : T → T → Bool) (cur : T) : List T → List T
  | [] => [cur]
  | x :: rest => if eq cur x then uniqueLoop eq cur rest else cur :: uniqueLoop eq x rest

/-- `erase(std::unique(begin, end), end)` — single_input_eval.cc:88-89. -/
def unique {T : Type} (eq : T → T → Bool) : List T → List T
  | [] => []
  | x :: rest => uniqueLoop eq x rest

/-- `GetSplitPoints` — single_input_eval.cc:78-91. -/
def splitPoints {T A : Type} (k : NumKind T) (o : Oracles) (trees : List (Tree Cond A)) : Option (List T) :=
  (allPoints k (trees.flatMap fun t => t.splits.map (·.cond))).map fun ps => unique k.eq (o.sort k.lt ps)

/-! ### The evaluator -/

/-- `PiecewiseConstantEvaluator<T>` — single_input_eval.h:43-64 without the slot. -/
structure Piecewise (T M : Type) where
  points : List T
  pointValues : List M
  middleValues : List M
  missing : M
  deriving Repr, DecidableEq

/-- The loop over the pairs of neighbours — single_input_eval.cc:168-172. -/
def middles {T M : Type} (k : NumKind T) (ev : Option T → Option M) : List T → Option (List M)
  | l :: r :: rest => do
    let m ← k.mid l r
    let v ← ev (some m)
    let vs ← middles k ev (r :: rest)
    pure (v :: vs)
  | _ => some []

/-- `middle_values` — single_input_eval.cc:162-174. -/
def middleValues {T M : Type} (k : NumKind T) (ev : Option T → Option M) (points : List T) : Option (List M) :=
  if points.isEmpty then do
    let v ← ev (some k.zero)
    pure [v]
  else do
    let first ← ev (some k.lowest)
    let vs ← middles k ev points
    let last ← ev (some k.max)
    pure (first :: vs ++ [last])

/-- `PiecewiseConstantCompiler<T>::Build` after the construction of the evaluator `ev` — single_input_eval.cc:156-178. -/
def buildPiecewise {T M : Type} (k : NumKind T) (ev : Option T → Option M) (points : List T) :
    Option (Piecewise T M) := do
  let pointValues ← points.mapM fun p => ev (some p)
  let middleValues ← middleValues k ev points
  let missing ← ev none
  pure ⟨points, pointValues, middleValues, missing⟩

/-- `PiecewiseConstantEvaluator<T>::Eval` — single_input_eval.cc:192-211. -/
def Piecewise.eval {T M : Type} (k : NumKind T) (p : Piecewise T M) (v : Option T) : Option M :=
  match v with
  | none => some p.missing
  | some v =>
    if k.nan v then some p.missing
    else
      let id := (p.points.takeWhile fun x => k.lt x v).length
      match p.points[id]? with
      | some x => if k.eq x v then p.pointValues[id]? else p.middleValues[id]?
      | none => p.middleValues.getLast?

end Verif.Forest
