import Verif.Comb.Model
import Mathlib.Analysis.SpecialFunctions.Pow.Complex
import Mathlib.Analysis.SpecialFunctions.Complex.Log
/-
Model of the assembly of the amplitude of one decay chain from its lineshapes and its
spin factor, src/Particle.cpp 361-383 and 423-498.
-/
namespace AmpGen.Amplitude

open Complex

/-- A node of a decay chain as `propagator` sees it: the name, the name of the lineshape
and the decay products (AmpGen/Particle.h:76-93, the members `m_name`, `m_lineshape` and
`m_daughters`; the others are arguments of the lineshape oracle). -/
inductive Node where
  | mk (name lineshape : String) (daughters : List Node)

/-- `m_daughters`. -/
def Node.daughters : Node → List Node
  | .mk _ _ ds => ds

/-- `m_lineshape`. -/
def Node.lineshape : Node → String
  | .mk _ l _ => l

/-- `s.find( pattern ) != std::string::npos`, on characters. -/
def contains (pattern : List Char) : List Char → Bool
  | [] => pattern.isEmpty
  | c :: l => pattern.isPrefixOf (c :: l) || contains pattern l

/-- The choice of the lineshape of one decay by its number of products,
src/Particle.cpp:369-379: `none` if the factor is left at one. -/
def lineshapeUsed (lineshape : String) (products : Nat) : Option String :=
  if products = 2 then some lineshape
  else if products ≥ 3 then some (if lineshape = "BW" then "SBW" else lineshape)
  else if products = 1 ∧ contains ['B', 'W'] lineshape.toList = false ∧
      contains ['F', 'o', 'r', 'm', 'F', 'a', 'c', 't', 'o', 'r'] lineshape.toList = false then some lineshape
  else none

mutual
/-- `Particle::propagator`, src/Particle.cpp:361-383.  `factory name node` is the value
of the lineshape of that name for that node (`Lineshape::Factory::get`) at the event; the
symbols for debugging and the marks for common subexpressions do not change the value. -/
noncomputable def propagator (factory : String → Node → ℂ) : Node → ℂ
  | .mk _ _ [] => 1
  | .mk name lineshape (d :: ds) =>
    (match lineshapeUsed lineshape (ds.length + 1) with
      | some l => factory l (.mk name lineshape (d :: ds))
      | none => 1) * propagator factory d * propagators factory ds
/-- The loop over the decay products, src/Particle.cpp:380. -/
noncomputable def propagators (factory : String → Node → ℂ) : List Node → ℂ
  | [] => 1
  | d :: ds => propagator factory d * propagators factory ds
end

/-- The modifiers that change the combination of the orderings, src/Particle.cpp:432-434. -/
structure Modifiers where
  noSym : Bool
  inco : Bool
  bgSpin0 : Bool

/-- The loop over the orderings, src/Particle.cpp:442-482: `prop` and `spin` are the
values of the product of lineshapes and of the spin factor with the final state in that
ordering (`setOrdering`); the products of lineshapes, stored in a map by ordering in an
earlier loop (438-441), are read directly. -/
noncomputable def sumOrderings (fuel : Nat) (parities : List Int) (m : Modifiers)
    (prop spin : List Nat → ℂ) : List (List Nat) → ℂ → Option ℂ
  | [], total => some total
  | ordering :: rest, total =>
    (Comb.minSwaps fuel ordering parities).bind fun exchangeParity =>
      let spinFactor := if m.bgSpin0 then 1 else spin ordering
      let ls := prop ordering * spinFactor
      let total' := if m.inco then total + conj ls * ls else total + exchangeParity.2 * ls
      if m.noSym then some total' else sumOrderings fuel parities m prop spin rest total'
where conj (z : ℂ) : ℂ := (starRingEnd ℂ) z

/-- `Particle::getExpression`, src/Particle.cpp:423-498: the value of the amplitude at an
event.  `names` are the names of the final state particles, `constant` says whether the
sum has simplified to a constant (`is<Constant>(total)`); `fcn::sqrt` is the principal
square root.  The state of polarisation is part of `spin`. -/
noncomputable def getExpression (fuel : Nat) (names : List String) (fermion : String → Bool)
    (m : Modifiers) (constant : Bool) (prop spin : List Nat → ℂ) : Option ℂ :=
  (Comb.identicalDaughterOrderings fuel names).bind fun orderings =>
    let parities := names.map fun s => if fermion s then (-1 : Int) else 1
    (sumOrderings fuel parities m prop spin orderings 0).map fun total =>
      let nPermutations : ℂ := if m.noSym then 1 else orderings.length
      if m.inco then (total / nPermutations) ^ (1 / 2 : ℂ)
      else (if constant then total + I * (1 / 100000) else total) / nPermutations ^ (1 / 2 : ℂ)

end AmpGen.Amplitude
