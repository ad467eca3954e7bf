import Verif.Tensor.Model
import Verif.Strings.Model
import Mathlib.Data.Complex.Basic
import Mathlib.Algebra.Star.BigOperators
/-
Model of the matrix element summed over polarisations from which the widths of resonances are computed, src/ThreeBodyCalculators.cpp:142-171.

Simplifications: the elements of tensors are their values, complex numbers; orderings of identical particles, propagators and spin tensors of a chain are arbitrary
functions (they are in Verif/Particle, Verif/Amplitude and Verif/Vertex); debugging symbols and common subexpressions are left out.
-/
namespace AmpGen.SpinAverage

open AmpGen.Tensor (Tensor nElements dot)
open AmpGen.Strings (Str find)
open ComplexConjugate

noncomputable section

/-- `operator*( const Expression&, const Tensor& )`, src/Tensor.cpp:222-227, and with the arguments in the other order, :233. -/
def scale (poison other : ℂ) (t1 : Tensor ℂ) : Tensor ℂ :=
  (List.range (nElements t1.dim)).foldl (fun result i => result.setIndex i (t1.atIndex poison i * other)) (Tensor.zero t1.dim)

/-- `Tensor::conjugate`, src/Tensor.cpp:207-212; `size()` is the number of elements. -/
def conjugate (poison : ℂ) (t : Tensor ℂ) : Tensor ℂ :=
  (List.range t.elements.length).foldl (fun copy i => copy.setIndex i (conj (t.atIndex poison i))) (Tensor.zero t.dim)

/-- What is used of a decay chain and its coupling, src/ThreeBodyCalculators.cpp:146-151: the lineshape of its head, the orderings of identical particles, the propagators,
which depend on the lineshape of the head and the ordering, and the spin tensor. -/
structure Chain where
  coupling : ℂ
  lineshape : Str
  orderings : List (List Nat)
  propagator : Str → List Nat → ℂ
  spinTensor : List Nat → Tensor ℂ

/-- The lineshape of the head, src/ThreeBodyCalculators.cpp:151-153. -/
def headLineshape (lineshape : Str) : Str :=
  if (find lineshape "EFF".toList 0).isSome || (find lineshape "ExpFF".toList 0).isSome then "ExpFF".toList else "FormFactor".toList

/-- The loop over orderings, src/ThreeBodyCalculators.cpp:149-163: the particle keeps the lineshape that was set for the last ordering. -/
def orderingLoop (poison : ℂ) (c : Chain) : List (List Nat) → Str → List (Tensor ℂ) → List (Tensor ℂ)
  | [], _, currents => currents
  | p :: perm, lineshape, currents =>
    let lineshape := headLineshape lineshape
    let prop := c.coupling * c.propagator lineshape p
    let zt := c.spinTensor p
    orderingLoop poison c perm lineshape (currents ++ [scale poison prop zt])

/-- The currents of all chains, src/ThreeBodyCalculators.cpp:145-164. -/
def currents (poison : ℂ) (elements : List Chain) : List (Tensor ℂ) :=
  elements.foldl (fun currents c => orderingLoop poison c c.orderings c.lineshape currents) []

/-- `std::pow( -1, twoSpin / 2. )`: not a number for an odd argument. -/
def powMinusOne (twoSpin : Nat) : Option ℂ := if twoSpin % 2 = 0 then some ((-1) ^ (twoSpin / 2)) else none

/-- `spinAverageMatrixElement`, src/ThreeBodyCalculators.cpp:142-171; `twoSpin` is that of the mother particle. -/
def spinAverageMatrixElement (poison : ℂ) (twoSpin : Nat) (elements : List Chain) : Option ℂ :=
  let js := currents poison elements
  let total := js.foldl (fun total j_a => js.foldl (fun total j_b => total + dot poison j_a (conjugate poison j_b)) total) 0
  (powMinusOne twoSpin).map fun sign => sign * total

end

end AmpGen.SpinAverage
