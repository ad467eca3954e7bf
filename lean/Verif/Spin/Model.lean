import Mathlib.Analysis.Real.Sqrt
import Mathlib.Algebra.Order.Floor.Semiring
/-
Model of the Clebsch-Gordan coefficients (src/Wigner.cpp) and of the spin-orbit couplings of a decay (src/Particle.cpp).

Simplifications: numbers are real or rational; a decay is given by twice the spins of the mother and its two daughters and by a function that says which
orbital angular momenta conserve parity.
-/
namespace AmpGen.Spin

/-- `fact`, src/Wigner.cpp:27-32. -/
noncomputable def fact (z : ℝ) : ℝ := (List.range ⌊z⌋₊).foldl (fun (f : ℝ) (i : Nat) => f * ((i : ℝ) + 1)) 1

/-- The number of passes of `for( int nu = 0; nu <= z; ++nu )`. -/
noncomputable def passes (z : ℝ) : Nat := if z < 0 then 0 else ⌊z⌋₊ + 1

/-- The body of the loop in `CG`, src/Wigner.cpp:86-96. -/
noncomputable def cgTerm (j1 m1 j2 m2 J : ℝ) (sum : ℝ) (nu : Nat) : ℝ :=
  let arg1 := j1 + j2 - J - nu
  let arg2 := j1 - m1 - nu
  let arg3 := j2 + m2 - nu
  let arg4 := J - j2 + m1 + nu
  let arg5 := J - j1 - m2 + nu
  if arg1 < 0 ∨ arg2 < 0 ∨ arg3 < 0 ∨ arg4 < 0 ∨ arg5 < 0 then sum
  else
    let sgn : ℝ := if nu % 2 = 0 then 1 else -1
    sum + sgn / (fact nu * fact arg1 * fact arg2 * fact arg3 * fact arg4 * fact arg5)

/-- `CG`, src/Wigner.cpp:73-98. -/
noncomputable def CG (j1 m1 j2 m2 J M : ℝ) : ℝ :=
  if m1 + m2 ≠ M then 0
  else
    let f1 := (2 * J + 1) * fact (J + j1 - j2) * fact (J - j1 + j2) * fact (j1 + j2 - J)
    let f2 := fact (j1 + m1) * fact (j1 - m1) * fact (j2 + m2) * fact (j2 - m2) * fact (J + M) * fact (J - M)
    let norm := f1 * f2 / fact (J + j1 + j2 + 1)
    let sum := (List.range (passes (j1 + j2 - J))).foldl (cgTerm j1 m1 j2 m2 J) 0
    √norm * sum

/-- `LS`, AmpGen/Wigner.h:42-49, without the members that are not used afterwards. -/
structure LS where
  factor : ℝ
  m1 : ℝ
  m2 : ℝ

/-- The body of the loops of `calculate_recoupling_constants`, src/Wigner.cpp:173-181. -/
noncomputable def recoupling (J L S j1 j2 m1 m2 : ℝ) : LS :=
  ⟨√((2 * L + 1) / (2 * J + 1)) * (CG L 0 S (m1 - m2) J (m1 - m2) * CG j1 m1 j2 (-m2) S (m1 - m2)), m1, m2⟩

open Classical in
/-- `calculate_recoupling_constants`, src/Wigner.cpp:162-185; the projection of the mother is not used. -/
noncomputable def recouplingConstants (J L S j1 j2 : ℝ) : List LS :=
  (List.range (passes (2 * j1))).flatMap fun (i : Nat) =>
    (List.range (passes (2 * j2))).flatMap fun (k : Nat) =>
      let f := recoupling J L S j1 j2 (-j1 + i) (-j2 + k)
      if f.factor ≠ 0 then [f] else []

/-- The first of the numbers `l, l + 1, ...`, `n` in all, for which `p`, or the one behind the last. -/
def firstFrom (p : Nat → Bool) (l : Nat) : Nat → Nat
  | 0 => l
  | n + 1 => if p l then l else firstFrom p (l + 1) n

/-- The loop `for( l = max; l != min - 1; --l )`, src/Particle.cpp:631-633, with `n` passes left; `l` is never below zero where it is used. -/
def lastFrom (p : Nat → Bool) (l : Nat) : Nat → Nat
  | 0 => l
  | n + 1 => if p l then l else lastFrom p (l - 1) n

/-- `orbitalRange` for two daughters, src/Particle.cpp:607-634; `S`, `s1` and `s2` are twice the spins. -/
def orbitalRange (conserves : Nat → Bool) (conserveParity : Bool) (S s1 s2 : Nat) : Nat × Nat :=
  let min_s12 := ((s1 : Int) - s2).natAbs
  let max_s12 := s1 + s2
  let min := ((S : Int) - min_s12).natAbs
  let max := S + max_s12
  let min := (List.range (max_s12 + 1 - min_s12)).foldl (fun m i => Nat.min m ((S : Int) - (min_s12 + i : Nat)).natAbs) min
  let min := min / 2
  let max := max / 2
  if conserveParity = false then (min, max)
  else
    let l := firstFrom conserves min (max + 1 - min)
    if l = max + 1 then (999, 999)
    else (l, lastFrom conserves max (max + 1 - min))

/-- The test in `spinOrbitCouplings`, src/Particle.cpp:648-650: how often the pair is added. -/
def accept (J L S : ℚ) : Nat :=
  let z2 := J * J - L * L - S * S
  (if L ≠ 0 ∧ S ≠ 0 ∧ |z2 / (2 * L * S)| ≤ 1 then 1 else 0) + (if (L = 0 ∨ S = 0) ∧ z2 = 0 then 1 else 0)

/-- `spinOrbitCouplings`, src/Particle.cpp:637-654. -/
def spinOrbitCouplings (conserves : Nat → Bool) (conserveParity : Bool) (S s1 s2 : Nat) : List (ℚ × ℚ) :=
  let lRange := orbitalRange conserves conserveParity S s1 s2
  let J : ℚ := (S : ℚ) / 2
  let j1 : ℚ := (s1 : ℚ) / 2
  let j2 : ℚ := (s2 : ℚ) / 2
  (List.range (lRange.2 + 1 - lRange.1)).flatMap fun (dl : Nat) =>
    let L := lRange.1 + dl
    if conserveParity && !conserves L then []
    else (List.range (⌊j1 + j2 - |j1 - j2|⌋₊ + 1)).flatMap fun (k : Nat) => List.replicate (accept J L (|j1 - j2| + k)) ((L : ℚ), |j1 - j2| + (k : ℚ))

end AmpGen.Spin
