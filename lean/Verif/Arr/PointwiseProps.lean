import Verif.Arr.PointwiseLemmas

/-!
# Properties of pointwise operations on arrays (C70, C74)
-/

namespace Verif.Arr
open Verif.Bits Verif.Bitmap Verif.Dense

variable {V R E : Type}

/-! ## C70 -/

/-- C70: an operation made by `CreateArrayOp`.  For arrays of the same size, in any mixture of
representations, any fresh memory and any outcome of the pointer comparisons: if the operation
succeeds, element `i` of the result is the result of the functor for the elements `i` of the arguments
(missing if a required one is missing); in particular it does not succeed if the functor fails for a
row.  If it fails, the functor fails for some row or for the missing_id_values. -/
theorem array_pointwise (m : PMem V) (hm : m.Ok) (rmem : Nat → R)
    (fn : List (Option V) → Except E (Option R)) (skip : Bool)
    (hskip : skip = false → ∀ x, ∃ o, fn x = .ok o) (p : PArg V) (ps : List (PArg V)) (n : Nat)
    (h : ∀ q ∈ p :: ps, q.arr.Valid ∧ q.arr.size = n) :
    ∃ res, arrayOp m rmem fn skip p ps = some res ∧
      (∀ r, res = .ok r → r.Valid ∧ r.size = n ∧
        ∀ i, i < n → applyRow fn (rowAt (p :: ps) i) = .ok (r.elem i)) ∧
      (∀ e, res = .error e → ∃ e', e = .fn e' ∧
        ((∃ i, i < n ∧ applyRow fn (rowAt (p :: ps) i) = .error e') ∨
          applyRow fn (missRow (p :: ps)) = .error e')) := by
  refine pointwiseOp_spec hm (universal_ok rmem fn skip hskip (by simp)) ?_ h
  rw [← optionalFn_eq]
  simp [missRow, Function.comp_def]

/-- C70: with a functor that cannot fail the operation succeeds and is elementwise. -/
theorem array_pointwise_total (m : PMem V) (hm : m.Ok) (rmem : Nat → R)
    (f : List (Option V) → Option R) (skip : Bool) (p : PArg V) (ps : List (PArg V)) (n : Nat)
    (h : ∀ q ∈ p :: ps, q.arr.Valid ∧ q.arr.size = n) :
    ∃ r, arrayOp (E := E) m rmem (fun x => .ok (f x)) skip p ps = some (.ok r) ∧ r.Valid ∧ r.size = n ∧
      ∀ i, i < n → r.elem i =
        if ∀ q ∈ p :: ps, q.optional = true ∨ q.arr.elem i ≠ none then
          f ((p :: ps).map (fun q => q.arr.elem i)) else none := by
  obtain ⟨res, e1, e2, e3⟩ := array_pointwise (E := E) m hm rmem (fun x => .ok (f x)) skip
    (fun _ x => ⟨_, rfl⟩) p ps n h
  have hno : ∀ (row : List (Bool × Option V)) (e : E), applyRow (fun x => .ok (f x)) row ≠ .error e := by
    intro row e
    unfold applyRow
    split <;> simp
  cases res with
  | error e =>
    obtain ⟨e', _, ⟨i, _, hf⟩ | hf⟩ := e3 e rfl
    · exact absurd hf (hno _ _)
    · exact absurd hf (hno _ _)
  | ok r =>
    obtain ⟨g1, g2, g3⟩ := e2 r rfl
    refine ⟨r, e1, g1, g2, ?_⟩
    intro i hi
    have := g3 i hi
    unfold applyRow at this
    have hc : (∀ x ∈ rowAt (p :: ps) i, x.1 = true ∨ x.2 ≠ none) ↔
        (∀ q ∈ p :: ps, q.optional = true ∨ q.arr.elem i ≠ none) := by
      unfold rowAt
      constructor
      · intro h q hq; exact h _ (List.mem_map.2 ⟨q, hq, rfl⟩)
      · intro h x hx; obtain ⟨q, hq, rfl⟩ := List.mem_map.1 hx; exact h q hq
    by_cases hcc : ∀ q ∈ p :: ps, q.optional = true ∨ q.arr.elem i ≠ none
    · rw [if_pos (hc.2 hcc)] at this
      rw [if_pos hcc, ← Except.ok.inj this]
      congr 1
      simp [rowAt]
    · rw [if_neg (fun h' => hcc (hc.1 h'))] at this
      rw [if_neg hcc, ← Except.ok.inj this]

/-- C70: arrays of different sizes are rejected. -/
theorem array_pointwise_size_mismatch (m : PMem V) (rmem : Nat → R)
    (fn : List (Option V) → Except E (Option R)) (skip : Bool) (p : PArg V) (ps : List (PArg V))
    (h : ∃ q ∈ ps, q.arr.size ≠ p.arr.size) :
    arrayOp m rmem fn skip p ps = some (.error .sizeMismatch) := by
  unfold arrayOp pointwiseOp
  rw [if_pos]
  intro hall
  obtain ⟨q, hq, hne⟩ := h
  have := List.all_eq_true.1 hall q hq
  simp at this
  exact hne this.symm

/-- C70: the same for any operation on dense arrays that is elementwise, as used by the operator
lifters; `pfn` is the corresponding operation on optional values. -/
theorem array_pointwise_lifted (m : PMem V) (hm : m.Ok) (fn : List (Option V) → Except E (Option R))
    (dop : List (Dense.Arg V) → Option (Except E (DArr R)))
    (pfn : List (Option V) → Except E (Option R)) (p : PArg V) (ps : List (PArg V)) (n : Nat)
    (hd : DenseOpOk ((p :: ps).map (·.optional)) fn dop)
    (hpfn : ∀ row : List (Bool × Option V), row.map (·.1) = (p :: ps).map (·.optional) →
      pfn (row.map (·.2)) = applyRow fn row)
    (h : ∀ q ∈ p :: ps, q.arr.Valid ∧ q.arr.size = n) :
    ∃ res, pointwiseOp m dop pfn p ps = some res ∧
      (∀ r, res = .ok r → r.Valid ∧ r.size = n ∧
        ∀ i, i < n → applyRow fn (rowAt (p :: ps) i) = .ok (r.elem i)) ∧
      (∀ e, res = .error e → ∃ e', e = .fn e' ∧
        ((∃ i, i < n ∧ applyRow fn (rowAt (p :: ps) i) = .error e') ∨
          applyRow fn (missRow (p :: ps)) = .error e')) := by
  refine pointwiseOp_spec hm hd ?_ h
  have := hpfn (missRow (p :: ps)) (by simp [missRow])
  rw [← this]
  simp [missRow, Function.comp_def]

/-- The functor of a total function of one required argument. -/
def fn1 (f : V → R) : List (Option V) → Except E (Option R)
  | [x] => .ok (x.map f)
  | _ => .ok none

/-- The functor of a total function of two required arguments. -/
def fn2 (f : V → V → R) : List (Option V) → Except E (Option R)
  | [some x, some y] => .ok (some (f x y))
  | _ => .ok none

/-- C70: the fast path for one argument (`UnaryOpImpl`) meets the requirement. -/
theorem unary_op_ok (f : V → R) : DenseOpOk (E := E) [false] (fn1 f) (fun args =>
    match args with
    | [a] => some (.ok (unaryOp f a.arr))
    | _ => none) := by
  intro args n hopt hargs
  match args, hopt with
  | [], hopt => simp at hopt
  | _ :: _ :: _, hopt => simp at hopt
  | [a], hopt =>
    obtain ⟨h1, h2⟩ := unaryOp_spec f (hargs a (by simp)).1
    have hl := (hargs a (by simp)).2
    refine ⟨_, rfl, ?_, by simp⟩
    intro d hd
    have : unaryOp f a.arr = d := by simpa using hd
    subst this
    refine ⟨h1, by simpa [unaryOp] using hl, ?_⟩
    intro i hi
    rw [elem_of_elems h2 (x := (Dense.elem a.arr i).map f) (by simp [elems, hl, hi])]
    have ho : a.optional = false := by simpa using hopt
    simp only [List.map_cons, List.map_nil, ho]
    generalize Dense.elem a.arr i = x
    cases x <;> simp [applyRow, fn1]

/-- C70: the fast path for two arguments (`BinaryOpImpl`) meets the requirement. -/
theorem binary_op_ok (f : V → V → R) (bmem : Nat → Word) :
    DenseOpOk (E := E) [false, false] (fn2 f) (fun args =>
    match args with
    | [a, b] => (binaryOp f ((List.range (min a.arr.bitmap.length b.arr.bitmap.length)).map bmem)
        a.arr b.arr).map .ok
    | _ => none) := by
  intro args n hopt hargs
  match args, hopt with
  | [], hopt => simp at hopt
  | [_], hopt => simp at hopt
  | _ :: _ :: _ :: _, hopt => simp at hopt
  | [a, b], hopt =>
    have hla := (hargs a (by simp)).2
    have hlb := (hargs b (by simp)).2
    obtain ⟨r, h0, h1, h2⟩ := binaryOp_spec f (hargs a (by simp)).1 (hargs b (by simp)).1
      (by omega) (bmem := (List.range (min a.arr.bitmap.length b.arr.bitmap.length)).map bmem) (by simp)
    refine ⟨.ok r, by simp [h0], ?_, by simp⟩
    intro d hd
    have : r = d := by simpa using hd
    subst this
    have hlen : r.values.length = n := by
      rw [← elems_length, h2, List.length_zipWith, elems_length, elems_length]; omega
    refine ⟨h1, hlen, ?_⟩
    intro i hi
    rw [elem_of_elems h2 (x := bothPresent f (Dense.elem a.arr i) (Dense.elem b.arr i))
      (by simp [elems, hla, hlb, hi])]
    have ho : a.optional = false ∧ b.optional = false := by simpa using hopt
    simp only [List.map_cons, List.map_nil, ho]
    generalize Dense.elem a.arr i = x
    generalize Dense.elem b.arr i = y
    cases x <;> cases y <;> simp [applyRow, fn2, bothPresent]

/-- Memory for the examples. -/
def exMem : PMem Int :=
  ⟨fun _ _ => 77, fun _ _ => 5, fun _ _ _ => false, fun _ _ => false, fun _ _ _ => false⟩

theorem exMem_ok : exMem.Ok := by simp [PMem.Ok, PtrEq, exMem]

/-- `[1, missing]`: id 1 is stored as missing, missing_id_value is 1. -/
def exNum : Arr Int := ⟨2, ⟨.partial', [1], 0⟩, ⟨[9], [0], 0⟩, some 1⟩
/-- `[3, 0]`: id 0 is stored, missing_id_value is 0. -/
def exDen : Arr Int := ⟨2, ⟨.partial', [0], 0⟩, ⟨[3], [], 0⟩, some 0⟩
/-- `[missing, 8, missing, 6, missing]` in sparse form. -/
def exS : Arr Int := ⟨5, ⟨.partial', [1, 3], 0⟩, ⟨[8, 6], [], 0⟩, none⟩
/-- `[4, 4, 2, 0, 4]` in sparse form with missing_id_value 4. -/
def exM : Arr Int := ⟨5, ⟨.partial', [12, 13], 10⟩, ⟨[2, 0], [], 0⟩, some 4⟩

theorem exNum_valid : exNum.Valid :=
  ⟨⟨by decide, Or.inr (by decide)⟩, ⟨by decide, by decide, by decide, by decide⟩, rfl⟩
theorem exDen_valid : exDen.Valid :=
  ⟨⟨by decide, Or.inl rfl⟩, ⟨by decide, by decide, by decide, by decide⟩, rfl⟩
theorem exS_valid : exS.Valid :=
  ⟨⟨by decide, Or.inl rfl⟩, ⟨by decide, by decide, by decide, by decide⟩, rfl⟩
theorem exM_valid : exM.Valid :=
  ⟨⟨by decide, Or.inl rfl⟩, ⟨by decide, by decide, by decide, by decide⟩, rfl⟩

/-- Integer `math.floordiv` of required arguments — qexpr/operators/math/arithmetic.h:90-125 (the
rounding of negative numbers is that of `Int.fdiv`). -/
def floorDiv : List (Option Int) → Except String (Option Int)
  | [some x, some y] => if y = 0 then .error "division by zero" else .ok (some (x.fdiv y))
  | _ => .ok none

example : (arrayOp exMem (fun _ => 7) floorDiv true ⟨false, exM⟩ [⟨false, exM⟩]).map
    (Except.map Arr.elems) = some (.error (.fn "division by zero")) := by rfl
example : (arrayOp exMem (fun _ => 7) floorDiv true ⟨false, exM⟩ [⟨false, exS⟩]).map
    (Except.map Arr.elems) = some (.ok [none, some 0, none, some 0, none]) := by rfl
example : ∀ q ∈ [(⟨false, exM⟩ : PArg Int), ⟨false, exS⟩], q.arr.Valid ∧ q.arr.size = 5 := by
  simp only [List.forall_mem_cons, List.not_mem_nil, false_implies, implies_true, and_true]
  exact ⟨⟨exM_valid, rfl⟩, exS_valid, rfl⟩

/-- C70 (finding): `[1, missing] // [3, 0]` fails with "division by zero" although no row divides by
zero, because the functor is also evaluated for the missing_id_values 1 and 0. -/
theorem array_pointwise_error_counterexample :
    ∃ a b : Arr Int, a.Valid ∧ b.Valid ∧ a.size = 2 ∧ b.size = 2 ∧
      (∀ i, i < 2 → ∃ v, applyRow floorDiv (rowAt [⟨false, a⟩, ⟨false, b⟩] i) = .ok v) ∧
      arrayOp exMem (fun _ => 7) floorDiv true ⟨false, a⟩ [⟨false, b⟩] =
        some (.error (.fn "division by zero")) := by
  refine ⟨exNum, exDen, exNum_valid, exDen_valid, rfl, rfl, ?_, by rfl⟩
  intro i hi
  match i, hi with
  | 0, _ => exact ⟨some 0, by rfl⟩
  | 1, _ => exact ⟨none, by rfl⟩

/-! ## C74 -/

/-- C74: `core.presence_or` of two arrays is elementwise, whichever of the shortcuts is taken. -/
theorem array_presence_or (m : PMem V) (hm : m.Ok) (rmem : Nat → V) (a b : Arr V) (ha : a.Valid)
    (hb : b.Valid) (hs : a.size = b.size) :
    ∃ r, aPresenceOr (E := E) m rmem a b = some (.ok r) ∧ r.Valid ∧
      r.elems = List.zipWith orElem a.elems b.elems := by
  obtain ⟨r, e1, e2, e3, e4⟩ := aPresenceOr_spec (E := E) hm rmem ha hb hs
  refine ⟨r, e1, e2, ?_⟩
  apply List.ext_getElem?
  intro i
  rw [List.getElem?_zipWith]
  by_cases hi : i < a.size
  · rw [aelems_get (by omega), aelems_get hi, aelems_get (by omega), e4 i hi]
  · rw [List.getElem?_eq_none_iff.2 (by rw [aelems_length]; omega),
      List.getElem?_eq_none_iff.2 (by rw [aelems_length]; omega)]

/-- C74: `core.presence_or` with a constant. -/
theorem array_presence_or_const (a : Arr V) (ha : a.Valid) (v : V) :
    ∃ r, aPresenceOrConst a v = some r ∧ r.Valid ∧
      r.elems = a.elems.map (fun x => orElem x (some v)) := by
  obtain ⟨r, e1, e2, e3, e4⟩ := aPresenceOrConst_spec ha v
  refine ⟨r, e1, e2, ?_⟩
  unfold Arr.elems
  rw [e3, List.map_map]
  exact List.map_congr_left (fun i hi => e4 i (by simpa using hi))

/-- C74: arrays of different sizes are rejected. -/
theorem array_presence_or_size_mismatch (m : PMem V) (rmem : Nat → V) (a b : Arr V)
    (hs : a.size ≠ b.size) : aPresenceOr (E := E) m rmem a b = some (.error .sizeMismatch) := by
  unfold aPresenceOr
  rw [if_pos hs]

example : ((aPresenceOr (E := Unit) exMem (fun _ => 7) exS exM).map (Except.map Arr.elems)) =
    some (.ok [some 4, some 8, some 2, some 6, some 4]) := by rfl
example : ((aPresenceOr (E := Unit) exMem (fun _ => 7) exS (.ofConst 5 (some 1))).map
    (Except.map Arr.elems)) = some (.ok [some 1, some 8, some 1, some 6, some 1]) := by rfl
example : (aPresenceOrConst exNum 6).map Arr.elems = some [some 1, some 6] := by rfl

end Verif.Arr
