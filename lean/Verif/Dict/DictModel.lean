import Verif.DOps.DOpsModel

/-!
# Model of dicts

`arolla/qexpr/operators/dict/dict_operators.h`, `arolla/qtype/dict/dict_types.h`, `py/arolla/operators/standard/dict.py`,
`arolla/expr/optimization/peephole_optimizations/dict.cc`.

A hash map is the list of its pairs; where the code iterates over one, the order is an arbitrary permutation.  A dense array of keys is
the list of its elements: `ForEach` and the builder are those of C05 and C06.  Floating point keys do not occur (dict_types.h:119-122),
so neither does the check for NaN.  Writing outside of a builder is `none`.
-/

namespace Verif.Dict
open Verif.Dense

variable {K α : Type} [DecidableEq K]

/-- `KeyToRowDict<Key>::Map` — dict_types.h:63. -/
abbrev Map (K : Type) := List (K × Int)

/-- `find` of a hash map. -/
def Map.find (d : Map K) (k : K) : Option Int := (List.find? (fun e => e.1 = k) d).map (·.2)

/-- `emplace` of a hash map: the map and whether the pair was inserted. -/
def Map.emplace (d : Map K) (k : K) (row : Int) : Map K × Bool := if (d.find k).isSome then (d, false) else ((k, row) :: d, true)

/-- Errors. -/
inductive Err (K : Type)
  | duplicate (k : K) | rowIds | incomplete | at (id : Int)
  deriving DecidableEq

/-- The loop of `dict._make_key_to_row_dict` — dict_operators.h:45-62. -/
def makeLoop : List (Option K) → Nat → Map K → Option K → Map K × Option K
  | [], _, d, status => (d, status)
  | some key :: keys, id, d, status =>
    let (d, inserted) := d.emplace key id
    makeLoop keys (id + 1) d (if inserted then status else some key)
  | none :: keys, id, d, status => makeLoop keys (id + 1) d status

/-- `MakeKeyToRowDictOp` — dict_operators.h:38-69. -/
def makeOp (keys : List (Option K)) : Except (Err K) (Map K) :=
  match makeLoop keys 0 [] none with
  | (d, none) => .ok d
  | (_, some key) => .error (.duplicate key)

/-- `DictGetRowOp` — dict_operators.h:72-83. -/
def getRow (d : Map K) (key : K) : Option Int := d.find key

/-- `DictContainsOp` — dict_operators.h:86-93. -/
def contains (d : Map K) (key : K) : Bool := (d.find key).isSome

/-- The loop of `dict._keys`; `size` is the size of the map — dict_operators.h:103-109. -/
def keysLoop (size : Nat) : Map K → List (Option K) → Option (Except (Err K) (List (Option K)))
  | [], b => some (.ok b)
  | (key, row) :: rest, b =>
    if row < 0 ∨ row ≥ size then some (.error .rowIds)
    else if row.toNat < b.length then keysLoop size rest (b.set row.toNat (some key))
    else none

/-- `DictKeysOp` for a map iterated in the given order; the result is full — dict_operators.h:96-117. -/
def keysOp (order : Map K) : Option (Except (Err K) (List K)) :=
  match keysLoop order.length order (List.replicate order.length none) with
  | none => none
  | some (.error e) => some (.error e)
  | some (.ok b) => if b.all Option.isSome then some (.ok (b.filterMap id)) else some (.error .incomplete)

/-- A dict: the rows of the keys, and the values — dict_types.cc:77-88. -/
structure Dict (K α : Type) where
  rows : Map K
  values : DArr α

/-- `dict.make` of dense arrays; the sizes are not compared — dict.py:180-209. -/
def make (keys : List (Option K)) (values : DArr α) : Except (Err K) (Dict K α) :=
  match makeOp keys with
  | .error e => .error e
  | .ok rows => .ok ⟨rows, values⟩

/-- `array.at(values, dict._get_row(dict, key))` for an optional key — dict.py:139-141. -/
def atRow (rows : Map K) (values : DArr α) (key : Option K) : Option (Except (Err K) (Option α)) :=
  (DOps.atOptOp values (key.bind (getRow rows))).map fun
    | .ok v => .ok v
    | .error id => .error (.at id)

/-- `dict.get` — dict.py:124-141. -/
def get (d : Dict K α) (key : Option K) : Option (Except (Err K) (Option α)) := atRow d.rows d.values key

/-- What is combined to the fingerprint of a map that `std::sort` puts in this order — dict_types.h:152-165. -/
def fingerprint (sorted : Map K) : Nat × Map K := (sorted.length, sorted)

/-! ## Optimisations -/

/-- `bool.logical_if` — bool/logic.h:93-102. -/
def logicalIf (condition : Option Bool) (t f m : Option α) : Option α :=
  match condition with
  | some true => t
  | some false => f
  | none => m

/-- The replacement of `BoolDictOptimization`: both values are read in any case — peephole_optimizations/dict.cc:40-57. -/
def boolDict (rows : Map Bool) (values : DArr α) (p : Option Bool) : Option (Except (Err Bool) (Option α)) :=
  match atRow rows values (some true), atRow rows values (some false) with
  | some (.ok t), some (.ok f) => some (.ok (logicalIf p t f none))
  | some (.error e), some _ => some (.error e)
  | some _, some (.error e) => some (.error e)
  | _, _ => none

/-- `dict._contains` of an optional key. -/
def containsOpt (d : Map K) (key : Option K) : Bool := key.any (contains d)

/-- The patterns of `AddDictContainsOptimizations` — peephole_optimizations/dict.cc:76-96. -/
def hasAndContains (d : Map K) (key : Option K) : Bool := key.isSome && containsOpt d key

end Verif.Dict
