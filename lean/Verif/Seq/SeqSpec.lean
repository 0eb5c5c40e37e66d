import Verif.Seq.SeqModel

/-!
# Specification of sequences
-/

namespace Verif.Seq

variable {Q V E : Type}

/-- The elements of a sequence. -/
def Seq.elems (s : Seq Q V) : List V := (s.data.drop s.off).take s.size

/-- A sequence lies in its block. -/
def Seq.Valid (s : Seq Q V) : Prop := s.off + s.size ≤ s.data.length

/-- A number that fits in `int64_t`. -/
def Int64 (x : Int) : Prop := -9223372036854775808 ≤ x ∧ x ≤ 9223372036854775807

/-- The elements of Python's `range(start, stop, step)`. -/
structure IsRange (start stop step : Int) (l : List Int) : Prop where
  value : ∀ k : Nat, k < l.length → l[k]? = some (start + k * step)
  length : ∀ k : Nat, k < l.length ↔ if step > 0 then start + k * step < stop else start + k * step > stop

/-- The elements of Python's `l[start:stop]`: negative numbers count from the end. -/
def pySlice (l : List V) (start stop : Int) : List V :=
  let fromEnd (x : Int) : Int := if x < 0 then x + l.length else x
  (l.zipIdx.filter fun e => decide (fromEnd start ≤ e.2 ∧ (e.2 : Int) < fromEnd stop)).map (·.1)

/-- The allocation of `n` elements fails. -/
def NoMem (M : Mem Q V) (q : Q) (n : Nat) : Prop := 0 < n ∧ (2 ^ 64 ≤ M.allocSize q * n ∨ M.alloc (M.allocSize q * n) = false)

/-- Apply to the elements in order, up to the first error. -/
def mapE {A B : Type} (f : A → Except E B) : List A → Except E (List B)
  | [] => .ok []
  | a :: as =>
    match f a with
    | .error e => .error e
    | .ok b =>
      match mapE f as with
      | .error e => .error e
      | .ok bs => .ok (b :: bs)

/-- Fold from the left, up to the first error. -/
def foldE {A B : Type} (f : B → A → Except E B) : List A → B → Except E B
  | [], b => .ok b
  | a :: as, b =>
    match f b a with
    | .error e => .error e
    | .ok b => foldE f as b

/-- The rows of columns of length `n`. -/
def rows (cols : List (List V)) (n : Nat) : List (List V) := (List.range n).map fun i => cols.filterMap fun c => c[i]?

end Verif.Seq
