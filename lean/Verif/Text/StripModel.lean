import Verif.Text.IcuModel

/-!
# Model of strings.lstrip, rstrip and strip

`arolla/qexpr/operators/strings/strings.h:115-237`.  `char` is signed, as on x86-64: a byte from `0x80` on is a negative `char`,
whose conversion to the `size_t` argument of `std::bitset::set`/`test` is out of range and throws, which gives `none`.
-/

namespace Verif.Text

/-- `do_lstrip` of `LStripOp` on bytes — lines 120-127. -/
def lstripLoop (test : Nat → Option Bool) : List Nat → Option (List Nat)
  | [] => some []
  | c :: s =>
    match test c with
    | none => none
    | some true => lstripLoop test s
    | some false => some (c :: s)

/-- `do_rstrip` of `RStripOp` on bytes; the bytes are given in the reverse order — lines 175-182. -/
def rstripLoop (test : Nat → Option Bool) : List Nat → Option (List Nat)
  | [] => some []
  | c :: s =>
    match test c with
    | none => none
    | some true => rstripLoop test s
    | some false => some (c :: s)

/-- `std::bitset<256> char_set(256)` followed by `set` for all characters: the bits as a number — lines 129-132, 184-187. -/
def charSet : Nat → List Nat → Option Nat
  | bits, [] => some bits
  | bits, c :: cs => if c < 128 then charSet (bits ||| 1 <<< c) cs else none

/-- `char_set.test(c)` — lines 133, 188. -/
def charTest (bits c : Nat) : Option Bool := if c < 128 then some (bits.testBit c) else none

/-- `absl::ascii_isspace` -/
def isSpace (c : Nat) : Bool := c = 32 || (9 ≤ c && c ≤ 13)

/-- `LStripOp` on bytes — lines 118-138. -/
def bytesLStrip (s : List Nat) (chars : Option (List Nat)) : Option (List Nat) :=
  match chars with
  | none => lstripLoop (fun c => some (isSpace c)) s
  | some cs => match charSet 256 cs with
    | none => none
    | some bits => lstripLoop (charTest bits) s

/-- `RStripOp` on bytes — lines 173-193. -/
def bytesRStrip (s : List Nat) (chars : Option (List Nat)) : Option (List Nat) :=
  match chars with
  | none => (rstripLoop (fun c => some (isSpace c)) s.reverse).map List.reverse
  | some cs => match charSet 256 cs with
    | none => none
    | some bits => (rstripLoop (charTest bits) s.reverse).map List.reverse

/-- `StripOp` on bytes — lines 228-231. -/
def bytesStrip (s : List Nat) (chars : Option (List Nat)) : Option (List Nat) :=
  match bytesLStrip s chars with
  | none => none
  | some s => bytesRStrip s chars

/-- `do_lstrip` of `LStripOp` on texts: the bytes from `pref` on; lengths are below `2^31` — lines 141-152. -/
def lstripText (test : Option Nat → Bool) : Nat → List Nat → Option (List Nat)
  | _, [] => some []
  | 0, _ :: _ => none
  | fuel + 1, b :: s =>
    if test (u8Next (b :: s)).1 then lstripText test fuel ((b :: s).drop (u8Next (b :: s)).2) else some (b :: s)

/-- The code point of a well-formed sequence that consists of the last `n` bytes. -/
def u8PrevAt (s : List Nat) (n : Nat) : Option Nat :=
  if n ≤ s.length then
    match u8Next (s.drop (s.length - n)) with
    | (some c, m) => if m = n then some c else none
    | (none, _) => none
  else none

/-- `U8_PREV` at the end of the bytes: the code point of the well-formed sequence that ends there, and its length.  For an
ill-formed sequence the step back is simplified to one byte. -/
def u8Prev (s : List Nat) : Option Nat × Nat :=
  match u8PrevAt s 1, u8PrevAt s 2, u8PrevAt s 3, u8PrevAt s 4 with
  | some c, _, _, _ => (some c, 1)
  | _, some c, _, _ => (some c, 2)
  | _, _, some c, _ => (some c, 3)
  | _, _, _, some c => (some c, 4)
  | _, _, _, _ => (none, 1)

/-- `do_rstrip` of `RStripOp` on texts: the first `len` bytes — lines 196-207. -/
def rstripText (test : Option Nat → Bool) : Nat → List Nat → Option (List Nat)
  | _, [] => some []
  | 0, _ :: _ => none
  | fuel + 1, b :: s =>
    if test (u8Prev (b :: s)).1 then rstripText test fuel ((b :: s).take ((b :: s).length - (u8Prev (b :: s)).2)) else some (b :: s)

/-- The test: `u_isUWhiteSpace` or the set of the code points in `chars` — lines 153-166, 208-221. -/
def textTest (ws : Option Nat → Bool) (chars : Option (List Nat)) (c : Option Nat) : Bool :=
  match chars with
  | none => ws c
  | some cs => ((u8All cs).map Prod.fst).contains c

/-- `LStripOp` on texts — lines 140-167. -/
def textLStrip (ws : Option Nat → Bool) (s : List Nat) (chars : Option (List Nat)) : Option (List Nat) :=
  lstripText (textTest ws chars) s.length s

/-- `RStripOp` on texts — lines 195-222. -/
def textRStrip (ws : Option Nat → Bool) (s : List Nat) (chars : Option (List Nat)) : Option (List Nat) :=
  rstripText (textTest ws chars) s.length s

/-- `StripOp` on texts — lines 233-236. -/
def textStrip (ws : Option Nat → Bool) (s : List Nat) (chars : Option (List Nat)) : Option (List Nat) :=
  match textLStrip ws s chars with
  | none => none
  | some s => textRStrip ws s chars

end Verif.Text
