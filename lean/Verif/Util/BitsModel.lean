/-!
# Model of `arolla/util/bits.h` and of the bitmap algorithms in `arolla/util/algorithms.h`

`Word` is `uint32_t` (the instantiation used for bitmaps); arrays of words are lists.  Reading or
writing outside of the array and shifting by 32 or more is undefined behaviour: `none`.
`size_t`/`int` quantities are natural numbers (no wraparound for sizes below 2^64 - 64).
-/

namespace Verif.Bits

abbrev Word := BitVec 32

/-- Store `v` at `ws[i]`. -/
def wr (ws : List Word) (i : Nat) (v : Word) : Option (List Word) :=
  if i < ws.length then some (ws.set i v) else none

/-- C++ `a << k`. -/
def shl (a : Word) (k : Nat) : Option Word := if k < 32 then some (a <<< k) else none

/-- C++ `a >> k` on an unsigned word. -/
def shr (a : Word) (k : Nat) : Option Word := if k < 32 then some (a >>> k) else none

/-- `for (i = lo; i < hi; ++i) body(i)`, as recursion on the number of remaining iterations. -/
def forLoop {σ : Type} (body : Nat → σ → Option σ) : Nat → Nat → σ → Option σ
  | _, 0, s => some s
  | i, n + 1, s => do
    let s ← body i s
    forLoop body (i + 1) n s

/-- `for (i = lo; i < hi; ++i) body(i)`. -/
def forRange {σ : Type} (lo hi : Nat) (body : Nat → σ → Option σ) (s : σ) : Option σ :=
  forLoop body lo (hi - lo) s

/-- `FindLSBSetNonZero` (`__builtin_ctz`) — bits.h:57-70.  Undefined for 0. -/
def findLSBSetNonZero (w : Word) : Option Nat := (List.range 32).find? (fun i => w.getLsbD i)

/-- `Bits::GetBit` — bits.h:81-83. -/
def getBit (ws : List Word) (i : Nat) : Option Bool := do
  let w ← ws[i / 32]?
  some (w.getLsbD (i % 32))

/-- `Bits::SetBit` — bits.h:85-87. -/
def setBit (ws : List Word) (i : Nat) : Option (List Word) := do
  let w ← ws[i / 32]?
  wr ws (i / 32) (w ||| (← shl 1 (i % 32)))

/-- `Bits::SetBitsInRange` — bits.h:90-110. -/
def setBitsInRange (ws : List Word) (start stop : Nat) : Option (List Word) :=
  if start = stop then some ws
  else do
    let startWord := start / 32
    let endWord := (stop - 1) / 32
    let ones : Word := ~~~0
    let startMask ← shl ones (start % 32)
    let endMask ← shr ones ((endWord + 1) * 32 - stop)
    let p ← ws[startWord]?
    if endWord = startWord then
      wr ws startWord (p ||| (startMask &&& endMask))
    else do
      let ws ← wr ws startWord (p ||| startMask)
      let ws ← forRange (startWord + 1) endWord (fun i ws => wr ws i ones) ws
      let q ← ws[endWord]?
      wr ws endWord (q ||| endMask)

/-- `Bits::CountOnes` (`std::bitset::count`) — bits.h:112-114. -/
def countOnes (w : Word) : Nat := (List.range 32).countP (fun i => w.getLsbD i)

/-- `Bits::GetOnesCountInRange` — bits.h:116-135. -/
def getOnesCountInRange (ws : List Word) (start stop : Nat) : Option Nat :=
  if start = stop then some 0
  else do
    let startWord := start / 32
    let endWord := (stop - 1) / 32
    let c := (← ws[startWord]?) &&& (← shl (~~~0) (start % 32))
    let endmask ← shr (~~~0) ((endWord + 1) * 32 - stop)
    if endWord = startWord then some (countOnes (c &&& endmask))
    else do
      let sum := countOnes c
      let sum ← forRange (startWord + 1) endWord
        (fun i sum => do some (sum + countOnes (← ws[i]?))) sum
      some (sum + countOnes ((← ws[endWord]?) &&& endmask))

/-- Loop of `FindNextSetBitInVector` — bits.h:159-164.  The result is `Sum.inl` for an early
`return`, `Sum.inr (int_index, one_word)` when the loop ends. -/
def findNextLoop (ws : List Word) (last : Nat) :
    Nat → Nat → Word → Option (Sum Nat (Nat × Word))
  | 0, _, _ => none
  | fuel + 1, idx, w =>
    if idx < last then
      if w ≠ 0 then do
        some (.inl (idx * 32 + (← findLSBSetNonZero w)))
      else do
        let w ← ws[idx + 1]?
        findNextLoop ws last fuel (idx + 1) w
    else some (.inr (idx, w))

/-- `Bits::FindNextSetBitInVector` — bits.h:138-174. -/
def findNextSetBitInVector (ws : List Word) (bitIndex limit : Nat) : Option Nat :=
  if bitIndex ≥ limit then some limit
  else do
    let intIndex := bitIndex / 32
    let w ← ws[intIndex]?
    let off := bitIndex % 32
    if w &&& (← shl 1 off) ≠ 0 then some bitIndex
    else do
      let w := w &&& (← shl (~~~0) off)
      let last := (limit - 1) / 32
      match ← findNextLoop ws last (last + 1 - intIndex) intIndex w with
      | .inl r => some r
      | .inr (idx, w) => do
        let w := w &&& ~~~(← shl (~~~0 - 1) ((limit - 1) % 32))
        if w ≠ 0 then some (idx * 32 + (← findLSBSetNonZero w)) else some limit

/-! ## algorithms.h -/

/-- The manually unrolled loop shared (textually) by `LogicalAnd` (algorithms.h:69-101) and
`InPlaceLogicalAnd` (algorithms.h:106-138): blocks of eight, then a `switch` with fallthrough. -/
def unrolled8 (step : Nat → List Word → Option (List Word)) (wordCount : Nat) (r : List Word) :
    Option (List Word) := do
  let e := (wordCount / 8) * 8
  -- `for (i = 0; i < e; i += 8)`
  let r ← forRange 0 (wordCount / 8) (fun k r => do
    let i := 8 * k
    let r ← step i r
    let r ← step (i + 1) r
    let r ← step (i + 2) r
    let r ← step (i + 3) r
    let r ← step (i + 4) r
    let r ← step (i + 5) r
    let r ← step (i + 6) r
    step (i + 7) r) r
  match wordCount - e with
  | 7 => do
    let r ← step (e + 6) r
    let r ← step (e + 5) r
    let r ← step (e + 4) r
    let r ← step (e + 3) r
    let r ← step (e + 2) r
    let r ← step (e + 1) r
    step e r
  | 6 => do
    let r ← step (e + 5) r
    let r ← step (e + 4) r
    let r ← step (e + 3) r
    let r ← step (e + 2) r
    let r ← step (e + 1) r
    step e r
  | 5 => do
    let r ← step (e + 4) r
    let r ← step (e + 3) r
    let r ← step (e + 2) r
    let r ← step (e + 1) r
    step e r
  | 4 => do
    let r ← step (e + 3) r
    let r ← step (e + 2) r
    let r ← step (e + 1) r
    step e r
  | 3 => do
    let r ← step (e + 2) r
    let r ← step (e + 1) r
    step e r
  | 2 => do
    let r ← step (e + 1) r
    step e r
  | 1 => step e r
  | _ => some r

/-- `LogicalAnd` — algorithms.h:66-102 (`result` does not overlap the sources). -/
def logicalAnd (src1 src2 result : List Word) (wordCount : Nat) : Option (List Word) :=
  unrolled8 (fun i r => do wr r i ((← src1[i]?) &&& (← src2[i]?))) wordCount result

/-- `InPlaceLogicalAnd` — algorithms.h:104-139. -/
def inPlaceLogicalAnd (src dest : List Word) (wordCount : Nat) : Option (List Word) :=
  unrolled8 (fun i r => do wr r i ((← r[i]?) &&& (← src[i]?))) wordCount dest

/-- `lhs[i] &= v`. -/
def andW (lhs : List Word) (i : Nat) (v : Word) : Option (List Word) := do
  wr lhs i ((← lhs[i]?) &&& v)

/-- `InplaceLogicalAndWithOffsets` — algorithms.h:145-188.  `rhs_words - 1` is a `size_t`
subtraction; it only runs with `rhs_skip > 0`, hence `rhs_words > 0`. -/
def inplaceLogicalAndWithOffsets (n : Nat) (rhs : List Word) (rhsSkip : Nat) (lhs : List Word)
    (lhsSkip : Nat) : Option (List Word) :=
  let rhsWords := (n + rhsSkip + 32 - 1) / 32
  let lhsWords := (n + lhsSkip + 32 - 1) / 32
  if lhsSkip = rhsSkip then inPlaceLogicalAnd rhs lhs rhsWords
  else if lhsSkip < rhsSkip then do
    let a := rhsSkip - lhsSkip
    let b := 32 - a
    let lhs ← forRange 0 (rhsWords - 1) (fun i lhs => do
      andW lhs i ((← shr (← rhs[i]?) a) ||| (← shl (← rhs[i + 1]?) b))) lhs
    let i := rhsWords - 1
    if i < lhsWords then andW lhs i (← shr (← rhs[i]?) a) else some lhs
  else do
    let a := lhsSkip - rhsSkip
    let b := 32 - a
    let lhs ← andW lhs 0 (← shl (← rhs[0]?) a)
    let lhs ← forRange 1 rhsWords (fun i lhs => do
      andW lhs i ((← shr (← rhs[i - 1]?) b) ||| (← shl (← rhs[i]?) a))) lhs
    let i := max 1 rhsWords
    if i < lhsWords then andW lhs i (← shr (← rhs[i - 1]?) b) else some lhs

/-- `*lhs = (*lhs & ~mask) | (val & mask)`. -/
def blend (lhs : List Word) (i : Nat) (mask val : Word) : Option (List Word) := do
  wr lhs i (((← lhs[i]?) &&& ~~~mask) ||| (val &&& mask))

/-- The value read for the first, partially overwritten word — algorithms.h:216-231. -/
def copyFirstVal (rhs : List Word) (rhsWords rhsSkip lhsSkip : Nat) : Option Word :=
  if lhsSkip = rhsSkip then rhs[0]?
  else if lhsSkip < rhsSkip then do
    let a := rhsSkip - lhsSkip
    let v ← shr (← rhs[0]?) a
    if rhsWords > 1 then some (v ||| (← shl (← rhs[1]?) (32 - a))) else some v
  else do shl (← rhs[0]?) (lhsSkip - rhsSkip)

/-- Copying of the full words — algorithms.h:258-272. -/
def copyFull (rhs : List Word) (r rhsWords rhsSkip : Nat) (lhs : List Word) (l full : Nat) :
    Option (List Word) :=
  if full > 0 then
    if rhsSkip = 0 then
      forRange 0 full (fun i lhs => do wr lhs (l + i) (← rhs[r + i]?)) lhs
    else do
      let lhs ← forRange 0 (min (rhsWords - 1) full) (fun i lhs => do
        wr lhs (l + i)
          ((← shr (← rhs[r + i]?) rhsSkip) ||| (← shl (← rhs[r + (i + 1)]?) (32 - rhsSkip)))) lhs
      let i := min (rhsWords - 1) full
      if i < full then wr lhs (l + i) (← shr (← rhs[r + i]?) rhsSkip) else some lhs
  else some lhs

/-- The value written to the last, partially overwritten word — algorithms.h:281-284. -/
def copyTailVal (rhs : List Word) (r rhsWords rhsSkip : Nat) : Option Word := do
  let v ← shr (← rhs[r]?) rhsSkip
  if rhsWords = 2 then some (v ||| (← shl (← rhs[r + 1]?) (32 - rhsSkip))) else some v

/-- The part of `CopyBits` after the first word — algorithms.h:254-287; `l` and `r` are the current
positions of the pointers `lhs` and `rhs`. -/
def copyRest (rhs : List Word) (r rhsWords rhsSkip : Nat) (lhs : List Word) (l lhsWords lhsTail : Nat) :
    Option (List Word) := do
  let full := if lhsTail = 0 then lhsWords else lhsWords - 1
  let lhs ← copyFull rhs r rhsWords rhsSkip lhs l full
  let l := l + full
  let r := r + full
  let rhsWords := rhsWords - full
  if lhsTail ≠ 0 then do
    let v ← copyTailVal rhs r rhsWords rhsSkip
    let mask ← shr (~~~0) lhsTail
    blend lhs l mask v
  else some lhs

/-- `CopyBits` — algorithms.h:194-288. -/
def copyBits (n : Nat) (rhs : List Word) (rhsSkip : Nat) (lhs : List Word) (lhsSkip : Nat) :
    Option (List Word) :=
  if n = 0 then some lhs
  else
    let rhsWords := (n + rhsSkip + 32 - 1) / 32
    let lhsWords := (n + lhsSkip + 32 - 1) / 32
    let lhsTail := lhsWords * 32 - (n + lhsSkip)
    if lhsSkip ≠ 0 then do
      let v ← copyFirstVal rhs rhsWords rhsSkip lhsSkip
      if lhsWords = 1 then do
        let mask := (← shl (~~~0) lhsSkip) &&& (← shr (~~~0) lhsTail)
        blend lhs 0 mask v
      else do
        let mask ← shl (~~~0) lhsSkip
        let lhs ← blend lhs 0 mask v
        if lhsSkip > rhsSkip then
          copyRest rhs 0 rhsWords (rhsSkip + (32 - lhsSkip)) lhs 1 (lhsWords - 1) lhsTail
        else
          copyRest rhs 1 (rhsWords - 1) (rhsSkip - lhsSkip) lhs 1 (lhsWords - 1) lhsTail
    else copyRest rhs 0 rhsWords rhsSkip lhs 0 lhsWords lhsTail

end Verif.Bits
