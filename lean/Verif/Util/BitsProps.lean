import Verif.Util.BitsAlgoLemmas

/-!
# C05–C07: bit-range primitives, CopyBits, bitmap AND

All statements are about the individual bits `bitAt` of the word arrays.
-/

namespace Verif.Bits

/-! ## C05 -/

/-- C05: `GetBit` reads the bit. -/
theorem get_bit (ws : List Word) (i : Nat) (h : i < 32 * ws.length) :
    getBit ws i = some (bitAt ws i) := getBit_eq h

/-- C05: `SetBit` sets exactly one bit. -/
theorem set_bit (ws : List Word) (i : Nat) (h : i < 32 * ws.length) :
    ∃ ws', setBit ws i = some ws' ∧ ws'.length = ws.length ∧
      ∀ j, bitAt ws' j = (bitAt ws j || decide (j = i)) := setBit_spec h

/-- C05: `SetBitsInRange` sets exactly the bits of the range. -/
theorem set_bits_in_range (ws : List Word) (start stop : Nat) (h1 : start ≤ stop)
    (h2 : stop ≤ 32 * ws.length) :
    ∃ ws', setBitsInRange ws start stop = some ws' ∧ ws'.length = ws.length ∧
      ∀ j, bitAt ws' j = (bitAt ws j || decide (start ≤ j ∧ j < stop)) :=
  setBitsInRange_spec h1 h2

/-- C05: `GetOnesCountInRange` counts exactly the set bits of the range. -/
theorem get_ones_count_in_range (ws : List Word) (start stop : Nat) (h1 : start ≤ stop)
    (h2 : stop ≤ 32 * ws.length) :
    getOnesCountInRange ws start stop =
      some ((List.range' start (stop - start)).countP (bitAt ws)) :=
  getOnesCountInRange_spec h1 h2

/-- C05: `FindNextSetBitInVector` returns the least set bit in `[lo, limit)`, or `limit`. -/
theorem find_next_set_bit (ws : List Word) (lo limit : Nat) (h : limit ≤ 32 * ws.length) :
    ∃ r, findNextSetBitInVector ws lo limit = some r ∧ IsNextSet (bitAt ws) lo limit r :=
  findNext_spec h

example : setBitsInRange [0, 5, 0, 7] 30 98 = some [0xC0000000, 0xFFFFFFFF, 0xFFFFFFFF, 7] ∧
    getOnesCountInRange [0xF0000000, 0xFF, 3] 30 65 = some 11 ∧
    findNextSetBitInVector [1, 0, 8] 1 96 = some 67 ∧
    findNextSetBitInVector [1, 0, 8] 1 67 = some 67 ∧
    findNextSetBitInVector [1, 0, 0] 1 80 = some 80 := by decide +kernel

/-! ## C06 -/

/-- C06: `CopyBits` copies exactly `n` bits, keeps all the others, and stays inside of both
arrays. -/
theorem copy_bits (n : Nat) (rhs lhs : List Word) (rs ls : Nat) (hrs : rs < 32) (hls : ls < 32)
    (hr : n + rs ≤ 32 * rhs.length) (hl : n + ls ≤ 32 * lhs.length) :
    ∃ res, copyBits n rhs rs lhs ls = some res ∧ res.length = lhs.length ∧
      ∀ i, bitAt res i =
        if ls ≤ i ∧ i < ls + n then bitAt rhs (i - ls + rs) else bitAt lhs i :=
  copyBits_spec hrs hls hr hl

example : copyBits 37 [0x12345678, 0x9ABCDEF0] 5 [0xFFFFFFFF, 0xFFFFFFFF] 3 =
    some [0x048D159F, 0xFFFFFFBC] := by decide +kernel
example : copyBits 37 [0x12345678, 0x9ABCDEF0] 3 [0xFFFFFFFF, 0xFFFFFFFF] 5 =
    some [0x48D159FF, 0xFFFFFFC0] := by decide +kernel

/-! ## C07 -/

/-- C07: `LogicalAnd` is the word-wise AND of the first `m` words, for every `m`. -/
theorem logical_and (src1 src2 result : List Word) (m : Nat) (h1 : m ≤ src1.length)
    (h2 : m ≤ src2.length) (h3 : m ≤ result.length) :
    ∃ r, logicalAnd src1 src2 result m = some r ∧ r.length = result.length ∧
      ∀ k, wd r k = if k < m then wd src1 k &&& wd src2 k else wd result k :=
  logicalAnd_spec h1 h2 h3

/-- C07: `InPlaceLogicalAnd` is the word-wise AND of the first `m` words, for every `m`. -/
theorem in_place_logical_and (src dest : List Word) (m : Nat) (h1 : m ≤ src.length)
    (h3 : m ≤ dest.length) :
    ∃ r, inPlaceLogicalAnd src dest m = some r ∧ r.length = dest.length ∧
      ∀ k, wd r k = if k < m then wd dest k &&& wd src k else wd dest k :=
  inPlaceLogicalAnd_spec h1 h3

/-- C07: `InplaceLogicalAndWithOffsets` computes the bitwise AND of the two ranges, reads and
writes only words of the two ranges.  Partial: the empty range with `rhs_skip = 0 < lhs_skip` is
excluded (see the counterexample). -/
theorem inplace_logical_and_with_offsets_partial (n : Nat) (rhs lhs : List Word) (rs ls : Nat)
    (hn : 0 < n + rs ∨ ls = 0) (hrs : rs < 32) (hls : ls < 32)
    (hr : n + rs ≤ 32 * rhs.length) (hl : n + ls ≤ 32 * lhs.length) :
    ∃ r, inplaceLogicalAndWithOffsets n rhs rs lhs ls = some r ∧ r.length = lhs.length ∧
      (∀ i, ls ≤ i → i < ls + n → bitAt r i = (bitAt lhs i && bitAt rhs (i - ls + rs))) ∧
      (∀ k, (n + ls + 31) / 32 ≤ k → wd r k = wd lhs k) :=
  inplaceAnd_spec hn hrs hls hr hl

/-- C07, the excluded case: for empty bitmaps (`n = 0`, no words in `rhs`) with `rhs_skip = 0` and
`lhs_skip > 0` the function reads `rhs[0]`, outside of `rhs`. -/
theorem inplace_logical_and_with_offsets_empty_counterexample :
    inplaceLogicalAndWithOffsets 0 [] 0 [0] 1 = none := by rfl

example : inplaceLogicalAndWithOffsets 40 [0xFF00FF00, 0x1234] 7 [0xFFFFFFFF, 0xFFFFFFFF] 3 =
    some [0x4FF00FF0, 0x123] := by decide +kernel
example : inplaceLogicalAndWithOffsets 40 [0xFF00FF00, 0x1234] 3 [0xFFFFFFFF, 0xFFFFFFFF] 7 =
    some [0xF00FF000, 0x1234F] := by decide +kernel

end Verif.Bits
