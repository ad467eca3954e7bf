import Mathlib.Data.Int.Basic
/-
Model of `lexical_cast` to integers and to `bool` (src/Utilities.cpp:427-489).  A word is the list of its characters.
-/
namespace AmpGen.Cast

/-- `isspace` of the C library. -/
def isSpace (c : Char) : Bool := c == ' ' || c == '\t' || c == '\n' || c == '\x0b' || c == '\x0c' || c == '\r'

/-- The digits at the beginning, as `strtol` reads them. -/
def readDigits (acc : Nat) : List Char → Nat × List Char
  | [] => (acc, [])
  | c :: r => if c.isDigit then readDigits (10 * acc + (c.toNat - '0'.toNat)) r else (acc, c :: r)

/-- The sign at the beginning, as `strtol` reads it: whether it is a minus, and the rest. -/
def readSign : List Char → Bool × List Char
  | '-' :: r => (true, r)
  | '+' :: r => (false, r)
  | r => (false, r)

/-- The number at the beginning of a word, after white space, and the rest of the word; `none` if there is no digit.  The rules of `strtol` and `strtoul` with base 10. -/
def readNumber (w : List Char) : Option (Bool × Nat × List Char) :=
  let s := readSign (w.dropWhile isSpace)
  match s.2 with
  | [] => none
  | c :: r => if c.isDigit then some (s.1, readDigits 0 (c :: r)) else none

/-- `strtol( word, &p, 10 )`: the number, which is the nearest one of 64 bits, and what `p` points at. -/
def strtol (w : List Char) : Int × List Char :=
  match readNumber w with
  | none => (0, w)
  | some (neg, n, r) => (max (-2 ^ 63) (min (2 ^ 63 - 1) (if neg then -(n : Int) else n)), r)

/-- `strtoul( word, &p, 10 )`: the largest number if there are too many digits, and a negative number modulo `2^64`. -/
def strtoul (w : List Char) : Int × List Char :=
  match readNumber w with
  | none => (0, w)
  | some (neg, n, r) => (if 2 ^ 64 ≤ n then 2 ^ 64 - 1 else (if neg then -(n : Int) else n) % 2 ^ 64, r)

/-- `*p == 0`: the end of the word, or a character zero in it. -/
def atEnd : List Char → Bool
  | [] => true
  | c :: _ => c == '\x00'

/-- `lexical_cast<int>`, src/Utilities.cpp:427-434: the value, and the flag `status` afterwards.  The number of 64 bits is converted to 32 bits. -/
def castInt (w : List Char) (status : Bool) : Int × Bool := (Int.bmod (strtol w).1 (2 ^ 32), status && atEnd (strtol w).2)

/-- `lexical_cast<unsigned int>`, src/Utilities.cpp:435-442. -/
def castUnsigned (w : List Char) (status : Bool) : Int × Bool := ((strtoul w).1 % 2 ^ 32, status && atEnd (strtoul w).2)

/-- `lexical_cast<long int>`, src/Utilities.cpp:473-480. -/
def castLong (w : List Char) (status : Bool) : Int × Bool := ((strtol w).1, status && atEnd (strtol w).2)

/-- `lexical_cast<unsigned long int>`, src/Utilities.cpp:482-489. -/
def castUnsignedLong (w : List Char) (status : Bool) : Int × Bool := ((strtoul w).1, status && atEnd (strtoul w).2)

/-- `lexical_cast<bool>`, src/Utilities.cpp:459-471. -/
def castBool (w : List Char) (status : Bool) : Bool × Bool :=
  if w = ['1'] ∨ w = ['t', 'r', 'u', 'e'] then (true, status) else if w = ['0'] ∨ w = ['f', 'a', 'l', 's', 'e'] then (false, status) else (false, false)

end AmpGen.Cast
