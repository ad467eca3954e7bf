import Mathlib.Data.Nat.Digits.Defs
/-
What the words in the properties of `lexical_cast` mean.
-/
namespace AmpGen.Cast.Spec

/-- The decimal digits, by value. -/
def digitChar (d : Nat) : Char := ['0', '1', '2', '3', '4', '5', '6', '7', '8', '9'].getD d '0'

/-- A word is the numeral of an integer: white space, a sign or none, and decimal digits, the most significant first. -/
def IsNumeral (w : List Char) (z : Int) : Prop :=
  ∃ (space sign : List Char) (ds : List Nat), w = space ++ sign ++ ds.map digitChar ∧ (∀ c ∈ space, c ∈ [' ', '\t', '\n', '\x0b', '\x0c', '\r']) ∧ ds ≠ [] ∧ (∀ d ∈ ds, d < 10) ∧
    ((sign = ['-'] ∧ z = -((Nat.ofDigits 10 ds.reverse : Nat) : Int)) ∨ ((sign = [] ∨ sign = ['+']) ∧ z = ((Nat.ofDigits 10 ds.reverse : Nat) : Int)))

/-- The usual text of an integer. -/
def text (z : Int) : List Char :=
  let digits := if z = 0 then ['0'] else ((Nat.digits 10 z.natAbs).reverse.map digitChar)
  if z < 0 then '-' :: digits else digits

end AmpGen.Cast.Spec
