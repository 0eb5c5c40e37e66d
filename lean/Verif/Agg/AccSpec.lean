import Verif.Agg.AccModel

/-!
# What the accumulators compute

The specifications speak about the list of added values only.
-/

namespace Verif.Agg

/-- The state after `Reset` and the values `xs`. -/
def Acc.after (acc : Acc P A R E S) (p : P) (xs : List A) (s : S) : S :=
  xs.foldl (fun s a => acc.add a s) (acc.reset p s)

/-- Result of an aggregator for a group. -/
def Acc.aggregate (acc : Acc P A R E S) (p : P) (xs : List A) (s : S) : R :=
  (acc.get (acc.after p xs s)).1

/-- Results of a partial accumulator: one after each value. -/
def Acc.partialResults (acc : Acc P A R E S) : List A → S → List R
  | [], _ => []
  | a :: rest, s => let (r, s) := acc.get (acc.add a s); r :: acc.partialResults rest s

/-- Consecutive results of a full accumulator. -/
def Acc.fullResults (acc : Acc P A R E S) : Nat → S → List R
  | 0, _ => []
  | n + 1, s => let (r, s) := acc.get s; r :: acc.fullResults n s

/-- The comparisons order all values except NaN, as those of C++ number and string types do. -/
structure Cmp.Ok (c : Cmp T) : Prop where
  irrefl : ∀ a, c.lt a a = false
  trans : ∀ a b d, c.lt a b = true → c.lt b d = true → c.lt a d = true
  total : ∀ a b d, c.nan b = false → c.lt a d = true → c.lt a b = true ∨ c.lt b d = true
  eq_iff : ∀ a b, c.nan a = false → c.nan b = false → (c.eq a b = true ↔ c.lt a b = false ∧ c.lt b a = false)
  nan_lt : ∀ a b, c.nan a = true ∨ c.nan b = true → c.lt a b = false
  nan_eq : ∀ a b, c.nan a = true ∨ c.nan b = true → c.eq a b = false

/-- `==` holds exactly for identical values, up to NaN. -/
def intCmp : Cmp Int where
  eq a b := decide (a = b)
  lt a b := decide (a < b)

/-- A type with one NaN. -/
def nanCmp : Cmp (Option Int) where
  nan a := a.isNone
  eq a b := a.isSome && decide (a = b)
  lt a b := match a, b with | some x, some y => decide (x < y) | _, _ => false

theorem intCmp_ok : intCmp.Ok := by
  constructor <;> simp [intCmp] <;> intros <;> omega

theorem nanCmp_ok : nanCmp.Ok := by
  constructor
  · intro a; cases a <;> simp [nanCmp]
  · intro a b d; cases a <;> cases b <;> cases d <;> simp [nanCmp]; omega
  · intro a b d; cases a <;> cases b <;> cases d <;> simp [nanCmp]; omega
  · intro a b; cases a <;> cases b <;> simp [nanCmp]; omega
  · intro a b; cases a <;> cases b <;> simp [nanCmp]
  · intro a b; cases a <;> cases b <;> simp [nanCmp]

/-- `std::nth_element`: a permutation in which position `k` separates the values which are not greater from those which are
not less.  Nothing is required if there are NaNs, as the behaviour is then undefined. -/
def NthOk (c : Cmp T) (nth : Nat → List T → List T) : Prop :=
  ∀ k l, k < l.length → (∀ x ∈ l, c.nan x = false) → (nth k l).Perm l ∧
    (∀ (i : Nat) x y, i < k → (nth k l)[i]? = some x → (nth k l)[k]? = some y → c.lt y x = false) ∧
    (∀ (i : Nat) x y, k < i → (nth k l)[i]? = some x → (nth k l)[k]? = some y → c.lt x y = false)

/-- `std::sort` with the comparison `less`, for lists which it orders strictly. -/
def SortOk (less : X → X → Bool) (nan : X → Bool) (sort : List X → List X) : Prop :=
  ∀ l : List X, (∀ x ∈ l, nan x = false) → (sort l).Perm l ∧ (sort l).Pairwise fun a b => less b a = false

/-- `std::partition` moving NaNs to the end, then `std::sort` of the first part. -/
def PartitionOk (c : Cmp T) (partition : List (T × Nat) → List (T × Nat) × List (T × Nat)) : Prop :=
  ∀ l, ((partition l).1 ++ (partition l).2).Perm l ∧ (∀ x ∈ (partition l).1, c.nan x.1 = false) ∧
    (∀ x ∈ (partition l).2, c.nan x.1 = true) ∧ (partition l).1.Pairwise fun a b => c.lt b.1 a.1 = false

/-- `x` has rank `k` in `l`: at most `k` values are less than it, and more than `k` are not greater. -/
def IsNth (c : Cmp T) (k : Nat) (l : List T) (x : T) : Prop :=
  x ∈ l ∧ l.countP (fun y => c.lt y x) ≤ k ∧ k < l.countP fun y => !c.lt x y

/-- A mapping which can be inverted. -/
def Invertible (l : List (Option Int)) : Prop :=
  (∀ (i : Nat) v, l[i]? = some (some v) → 0 ≤ v ∧ v < l.length) ∧
  ∀ (i j : Nat) v, l[i]? = some (some v) → l[j]? = some (some v) → i = j

/-- Values joined by a separator. -/
def join (sep : List UInt8) : List (List UInt8) → List UInt8
  | [] => []
  | [x] => x
  | x :: rest => x ++ sep ++ join sep rest

/-- `i` is the first position of `l` which `best` prefers to all others. -/
def FirstBest (l : List (Option T)) (better : T → T → Bool) (i : Nat) : Prop :=
  ∃ x, l[i]? = some (some x) ∧ (∀ (j : Nat) y, l[j]? = some (some y) → better y x = false) ∧
    ∀ (j : Nat) y, j < i → l[j]? = some (some y) → better x y = true

end Verif.Agg
