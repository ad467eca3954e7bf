import Mathlib.Algebra.Field.Basic
import Mathlib.Data.List.Basic
/-
Model of `Tensor::Invert` (src/Tensor.cpp:261-306), of src/Lineshapes/kMatrix.cpp and of the production amplitudes of
src/Lineshapes/GenericKmatrix.cpp.  Expressions are modelled by their values in a field; `make_cse` and `SubTree` do not change a
value.
-/
namespace AmpGen.KMatrix

/-- The elements of a tensor of rank two. -/
abbrev Data (K : Type) := Nat × Nat → K

/-- `data( i, j ) = x`, src/Tensor.cpp:541.  `store` says where an element is kept (`symmetrisedIndex`, src/Tensor.cpp:99-106): the identity,
unless a symmetry has been imposed on the tensor. -/
def put {K : Type} (store : Nat × Nat → Nat × Nat) (d : Data K) (p : Nat × Nat) (x : K) : Data K :=
  fun q => if q = store p then x else d q

/-- `for ( int i = lo; i < hi; i++ )` -/
def loop {σ : Type} (lo hi : Nat) (body : Nat → σ → σ) (s : σ) : σ := (List.range' lo (hi - lo)).foldl (fun (s : σ) (i : Nat) => body i s) s

section
variable {K : Type} [Field K] (store : Nat × Nat → Nat × Nat) (quot : K → K → K)

/-- The loop that forms the sum of an element of `L`, src/Tensor.cpp:271-273; also that of `U`, 278-279. -/
def sumBelow (d : Data K) (i j m : Nat) : K := loop 0 m (fun k (sum : K) => sum + d (store (i, k)) * d (store (k, j))) 0

/-- "normalize row 0", src/Tensor.cpp:268; `data[i]` is the element `(0, i)`.  `quot` is the division of the
floating point numbers, of which only the quotient by a number other than zero is known. -/
def rowZero (n : Nat) (d : Data K) : Data K :=
  loop 1 n (fun i (d : Data K) => put store d (0, i) (quot (d (store (0, i))) (d (store (0, 0))))) d

/-- One column of `L`, src/Tensor.cpp:270-275. -/
def columnL (n i : Nat) (d : Data K) : Data K :=
  loop i n (fun j (d : Data K) => put store d (j, i) (d (store (j, i)) - sumBelow store d j i i)) d

/-- One row of `U`, src/Tensor.cpp:276-281; the sum is that over `k < i`. -/
def rowU (n i : Nat) (d : Data K) : Data K :=
  loop (i + 1) n (fun j (d : Data K) => put store d (i, j) (quot (d (store (i, j)) - sumBelow store d i j i) (d (store (i, i))))) d

/-- The factorisation, src/Tensor.cpp:269-282. -/
def factorise (n : Nat) (d : Data K) : Data K :=
  loop 1 n (fun i (d : Data K) =>
    let d := columnL store n i d
    if i = n - 1 then d else rowU store quot n i d) d

/-- "invert L", src/Tensor.cpp:283-290. -/
def invertL (n : Nat) (d : Data K) : Data K :=
  loop 0 n (fun i (d : Data K) =>
    let d := put store d (i, i) (quot 1 (d (store (i, i))))
    loop (i + 1) n (fun j (d : Data K) =>
      put store d (j, i)
        (quot (loop i j (fun k (sum : K) => sum - d (store (j, k)) * d (store (k, i))) 0) (d (store (j, j))))) d) d

/-- "invert U", src/Tensor.cpp:291-298. -/
def invertU (n : Nat) (d : Data K) : Data K :=
  loop 0 n (fun i (d : Data K) =>
    loop (i + 1) n (fun j (d : Data K) =>
      put store d (i, j)
        (-(loop i j (fun k (sum : K) => sum + d (store (k, j)) * (if i = k then 1 else d (store (i, k)))) 0))) d) d

/-- "final inversion", src/Tensor.cpp:299-306. -/
def multiply (n : Nat) (d : Data K) : Data K :=
  loop 0 n (fun i (d : Data K) =>
    loop 0 n (fun j (d : Data K) =>
      put store d (j, i)
        (loop (if i > j then i else j) n (fun k (sum : K) => sum + (if j = k then 1 else d (store (j, k))) * d (store (k, i))) 0)) d) d

/-- `Tensor::Invert`, src/Tensor.cpp:261-308, for a tensor with `n` rows and columns. -/
def invert (n : Nat) (d : Data K) : Data K :=
  multiply store n (invertU store n (invertL store quot n (factorise store quot n (rowZero store quot n d))))

end

/-- A tensor without symmetries keeps every element apart, src/Tensor.cpp:77-86. -/
def apart (p : Nat × Nat) : Nat × Nat := p

/-- After `imposeSymmetry( 0, 1 )` the elements above the diagonal are kept below it, src/Tensor.cpp:512-523. -/
def symmetric (p : Nat × Nat) : Nat × Nat := if p.2 > p.1 then (p.2, p.1) else p

/-- `poleConfig`, AmpGen/kMatrix.h:28-42. -/
structure Pole (K : Type) where
  s : K
  couplings : Nat → K

section
variable {K : Type} [Field K]

/-- `constructKMatrix`, src/Lineshapes/kMatrix.cpp:65-79. -/
def constructKMatrix (s : K) (poles : List (Pole K)) : Data K := fun p =>
  poles.foldl (fun (sum : K) (pole : Pole K) => sum + (pole.couplings p.1 * pole.couplings p.2) / (pole.s - s)) 0

/-- The matrix that `getPropagator` inverts, src/Lineshapes/kMatrix.cpp:55-60.  `I` is the imaginary unit. -/
def propagatorMatrix (I : K) (kMatrix : Data K) (phaseSpace : Nat → K) : Data K := fun p =>
  (if p.1 = p.2 then 1 else 0) - I * kMatrix p * phaseSpace p.2

/-- `getPropagator`, src/Lineshapes/kMatrix.cpp:52-63. -/
def getPropagator (quot : K → K → K) (I : K) (n : Nat) (kMatrix : Data K) (phaseSpace : Nat → K) : Data K :=
  invert apart quot n (propagatorMatrix I kMatrix phaseSpace)

/-- The slowly varying part, src/Lineshapes/kMatrix.cpp:121-125: both assignments of the loop, in order, into a tensor of zeros. -/
def scattPart (n : Nat) (fScatt : Nat → K) (s s0 : K) : Data K :=
  loop 0 n (fun i (d : Data K) =>
    let x := fScatt i * (1 - s0) / (s - s0)
    put apart (put apart d (i, 0) x) (0, i) x) (fun _ => 0)

/-- The K-matrix of the lineshape `kMatrix`, src/Lineshapes/kMatrix.cpp:120-132.  `imposeSymmetry( 0, 1 )` reads the elements above
the diagonal from below it. -/
def lineshapeKMatrix (n : Nat) (s : K) (poles : List (Pole K)) (fScatt : Nat → K) (s0Scatt adler : K) : Data K := fun p =>
  (constructKMatrix s poles (symmetric p) + scattPart n fScatt s s0Scatt (symmetric p)) * adler

/-- The poles of the lineshape `kMatrix`, src/Lineshapes/kMatrix.cpp:105-112.  `tiny` is the term `addImaginaryMass * (1i)*(1.e-6)`, which is zero
if the option `kMatrix::fp` is false.  The option is true by default. -/
def lineshapePole (tiny mass : K) (couplings : Nat → K) : Pole K := ⟨mass * mass + tiny, couplings⟩

/-- The modifier `scatt`, src/Lineshapes/kMatrix.cpp:154-161. -/
def scatt (n : Nat) (kMatrix propagator : Data K) (i j : Nat) : K :=
  loop 0 n (fun x (M : K) => M + kMatrix (x, i) * propagator (j, x)) 0

/-- The modifiers `pole` (channel 0) and `poleKK` (channel 1), src/Lineshapes/kMatrix.cpp:162-178. -/
def poleTerm (n : Nat) (s : K) (pole : Pole K) (propagator : Data K) (channel : Nat) : K :=
  loop 0 n (fun i (M : K) => M + propagator (channel, i) * pole.couplings i) 0 / (pole.s - s)

/-- The modifiers `prod` and `prodKK`, src/Lineshapes/kMatrix.cpp:180-186. -/
def prodTerm (s s0 : K) (propagator : Data K) (channel term : Nat) : K :=
  propagator (channel, term) * (1 - s0) / (s - s0)

/-- What the P-vector loop carries, src/Lineshapes/GenericKmatrix.cpp:124-126: `P[k]` and `phi[k]` of the channel at hand. -/
structure PVec (K : Type) where
  P : K
  phi : K

/-- The P-vector of one channel, src/Lineshapes/GenericKmatrix.cpp:131-138. -/
def pVector (n : Nat) (s s0 : K) (poles : List (Pole K)) (a : Nat → K) (nonResonant : Data K) (k : Nat) : PVec K :=
  poles.foldl (fun (v : PVec K) (pole : Pole K) =>
    let r := loop 0 n (fun q (r : K × K) => (r.1 + a q * pole.couplings q, r.2 + a q * nonResonant (k, q))) (0, v.phi)
    ⟨v.P + ((r.1 * pole.couplings k) / (pole.s - s) + r.2 * (1 + s0) / (s - s0)), r.2⟩) ⟨0, 0⟩

/-- The production amplitude `PVec`, src/Lineshapes/GenericKmatrix.cpp:123-143. -/
def pVectorAmplitude (n : Nat) (s s0 : K) (poles : List (Pole K)) (a : Nat → K) (nonResonant propagator : Data K) : K :=
  loop 0 n (fun k (F : K) => F + propagator (0, k) * (pVector n s s0 poles a nonResonant k).P) 0

/-- The production amplitude `QVec`, src/Lineshapes/GenericKmatrix.cpp:160-165. -/
def qVectorAmplitude (n : Nat) (kMatrix propagator : Data K) : K :=
  loop 0 n (fun i (M : K) => M + kMatrix (i, 0) * propagator (0, i)) 0

/-- The production amplitude `ZVec`, src/Lineshapes/GenericKmatrix.cpp:144-158. -/
def zVectorAmplitude (n : Nat) (s : K) (pole : Pole K) (propagator : Data K) (channel : Nat) : K :=
  loop 0 n (fun i (M : K) => M + propagator (channel, i) * pole.couplings i / (pole.s - s)) 0

end

end AmpGen.KMatrix
