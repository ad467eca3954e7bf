import Verif.Strings.Model
/-
Model of AmpGen/enum.h: `detail::parse` and `detail::to_string`, for a list of names given as text.
Enumeration values are integers.  Simplifications: integers are unbounded, and strings contain no null character.
-/
namespace AmpGen.Enum
open AmpGen.Strings (Str)

/-- `isspace`, as used by `strtoul`. -/
def isSpace (c : Char) : Bool := c == ' ' || c == '\t' || c == '\n' || c == '\x0b' || c == '\x0c' || c == '\r'

/-- `isdigit`. -/
def isDigit (c : Char) : Bool := '0' ≤ c && c ≤ '9'

/-- The value of digits. -/
def digits (s : Str) : Int := s.foldl (fun n c => 10 * n + (c.toNat - '0'.toNat : Nat)) 0

/-- `strtoul( word, &p, 10 )`: the number and the text from `p` on.  Without digits the number is zero and `p` the beginning. -/
def strtoul (word : Str) : Int × Str :=
  let s := word.dropWhile isSpace
  let (neg, s) := match s with
    | '-' :: t => (true, t)
    | '+' :: t => (false, t)
    | t => (false, t)
  let ds := s.takeWhile isDigit
  if ds = [] then (0, word) else (if neg then - digits ds else digits ds, s.dropWhile isDigit)

theorem dropWhile_length_le (p : Char → Bool) (s : Str) : (s.dropWhile p).length ≤ s.length := (List.dropWhile_suffix p).length_le

/-- Loop of `parse`, AmpGen/enum.h:46-54, from the position `begin` on. -/
def parseLoop (word : Str) (args : Str) (counter : Nat) : Option Nat :=
  if args = [] then none
  else
    let s := args.dropWhile (· == ' ')
    if word = s.takeWhile (· != ',') then some counter
    else
      match h : s.dropWhile (· != ',') with
      | [] => none
      | _ :: t => parseLoop word t (counter + 1)
termination_by args.length
decreasing_by
  have h1 := dropWhile_length_le (· != ',') (args.dropWhile (· == ' '))
  have h2 := dropWhile_length_le (· == ' ') args
  have h3 := congrArg List.length h
  simp only [s, List.length_cons] at h3 h1
  omega

/-- `parse`, AmpGen/enum.h:31-57. -/
def parse (args : Str) (invalid : Int) (word : Str) : Int :=
  if (strtoul word).2 = [] then (strtoul word).1
  else
    match parseLoop word args 0 with
    | none => invalid
    | some n => n

/-- First loop of `to_string`, AmpGen/enum.h:63-66: the text from the entry with the given number on. -/
def skipTo (item : Int) : Str → Int → Str
  | [], _ => []
  | c :: s, counter => if counter = item then c :: s else skipTo item s (if c = ',' then counter + 1 else counter)

/-- `to_string`, AmpGen/enum.h:58-70. -/
def toString (args : Str) (item : Int) : Str := ((skipTo item args 0).dropWhile (· == ' ')).takeWhile (· != ',')

end AmpGen.Enum
