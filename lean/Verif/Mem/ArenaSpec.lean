import Verif.Mem.ArenaModel

/-! # Specification: buffers are independent arrays of bytes -/

namespace Verif.Arena

/-- The buffers of a client; `none` is a byte that was not written. -/
abbrev Ideal := List (List (Option Nat))

/-- What an operation of the client does; `none` for a buffer or a position that does not exist. -/
def idealStep (s : Ideal) : Op → Option Ideal
  | .create n => some (s ++ [List.replicate n none])
  | .realloc i n =>
    match s[i]? with
    | none => none
    | some b => some (s.set i (b.take n ++ List.replicate (n - b.length) none))
  | .write i j v =>
    match s[i]? with
    | none => none
    | some b => if j < b.length then some (s.set i (b.set j (some v))) else none
  | .reset => some []

def idealRun : Ideal → List Op → Option Ideal
  | s, [] => some s
  | s, op :: ops =>
    match idealStep s op with
    | none => none
    | some s' => idealRun s' ops

/-- The byte at `x` belongs to the block. -/
def Has (b : Block) (x : Nat) : Prop := b.1 ≤ x ∧ x < b.1 + b.2

/-- The base factory never gives memory that it gave before and that is still held, nor an address below 8; the memory is aligned. -/
def BaseOk (base : Nat → List Block → Nat → Nat) : Prop :=
  ∀ t held n, base t held n % 8 = 0 ∧ (0 < n → 8 ≤ base t held n) ∧
    ∀ b ∈ held, ∀ x, Has b x → ¬ Has (base t held n, n) x

/-- The memory and the buffers of the client hold what the client has written. -/
def Holds (mem : Nat → Nat) (bufs : List Block) (s : Ideal) : Prop :=
  bufs.length = s.length ∧
  ∀ (i data n : Nat), bufs[i]? = some (data, n) → ∃ b : List (Option Nat), s[i]? = some b ∧ b.length = n ∧
    ∀ (j v : Nat), b[j]? = some (some v) → mem (data + j) = v

/-- No byte belongs to two buffers. -/
def Disjoint (bufs : List Block) : Prop :=
  ∀ (i j : Nat) b c x, i ≠ j → bufs[i]? = some b → bufs[j]? = some c → Has b x → ¬ Has c x

end Verif.Arena
