import Mathlib.Data.List.Sort
import Mathlib.Analysis.Real.Sqrt
import Mathlib.Analysis.SpecialFunctions.Trigonometric.Basic
/-
Model of src/PhaseSpace.cpp over the real numbers.  The random number generator is an
arbitrary stream `r`, read in order.  The decay time, which is independent of the momenta, is
not modelled, and the output is an array of four-vectors instead of `4*nt` numbers `width` apart.
-/
namespace AmpGen.PhaseSpace

open Classical

/-- Four consecutive output numbers, src/PhaseSpace.cpp:61-64. -/
@[ext] structure V4 where
  x : ℝ
  y : ℝ
  z : ℝ
  e : ℝ

/-- AmpGen/PhaseSpace.h:37-44. -/
structure Gen where
  nt : Nat
  mass : Nat → ℝ
  te : ℝ
  wtMax : ℝ

/-- src/PhaseSpace.cpp:32-35. -/
noncomputable def q (m m1 m2 : ℝ) : ℝ :=
  0.5 * √(m * m - 2 * m1 * m1 - 2 * m2 * m2 + (m1 * m1 - m2 * m2) * (m1 * m1 - m2 * m2) / (m * m))

/-- One turn of the loop of `setDecay`, src/PhaseSpace.cpp:111-115, on `(emmin, emmax, wtmax)`. -/
noncomputable def maxStep (mass : Nat → ℝ) (s : ℝ × ℝ × ℝ) (n : Nat) : ℝ × ℝ × ℝ :=
  let emmin := s.1 + mass (n - 1)
  let emmax := s.2.1 + mass n
  (emmin, emmax, s.2.2 * q emmax emmin (mass n))

/-- `setDecay` on a fresh generator, src/PhaseSpace.cpp:99-118; the flag is its return value. -/
noncomputable def setDecay (m0 : ℝ) (masses : List ℝ) : Gen × Bool :=
  let mass := fun n => masses.getD n 0
  let nt := masses.length
  let te := (List.range nt).foldl (fun t n => t - mass n) m0
  if te ≤ 0 then (⟨nt, mass, te, 0⟩, false)
  else
    let s := (List.range' 1 (nt - 1)).foldl (maxStep mass) (0, te + mass 0, 1)
    (⟨nt, mass, te, 1 / s.2.2⟩, true)

/-- The array `rno` after sorting, src/PhaseSpace.cpp:47-50; `u` are the `nt - 2` numbers drawn.
With a single particle entry 0 is overwritten by 1. -/
noncomputable def rno (nt : Nat) (u : Nat → ℝ) : List ℝ :=
  if nt = 1 then [1]
  else 0 :: (((List.range (nt - 2)).map u) ++ [1]).insertionSort (· ≤ ·)

/-- The invariant masses, src/PhaseSpace.cpp:51-55. -/
noncomputable def invMas (g : Gen) (u : Nat → ℝ) (n : Nat) : ℝ :=
  (rno g.nt u).getD n 0 * g.te + (List.range (n + 1)).foldl (fun s k => s + g.mass k) 0

/-- The break-up momenta, src/PhaseSpace.cpp:57; `junk` stands for the uninitialised entries. -/
noncomputable def pd (g : Gen) (u : Nat → ℝ) (junk : Nat → ℝ) (n : Nat) : ℝ :=
  if n < g.nt - 1 then q (invMas g u (n + 1)) (invMas g u n) (g.mass (n + 1)) else junk n

/-- The weight of an attempt, src/PhaseSpace.cpp:45,58. -/
noncomputable def weight (g : Gen) (u : Nat → ℝ) : ℝ :=
  (List.range (g.nt - 1)).foldl (fun w n => w * q (invMas g u (n + 1)) (invMas g u n) (g.mass (n + 1))) g.wtMax

/-- The numbers of the attempt starting at position `pos` of the stream. -/
def draws (r : Nat → ℝ) (pos : Nat) : Nat → ℝ := fun k => r (pos + k)

/-- The accept/reject loop, src/PhaseSpace.cpp:44-60: the stream position of the accepted
attempt, or `none` if the fuel runs out. -/
noncomputable def accept (g : Gen) (r : Nat → ℝ) : Nat → Nat → Option Nat
  | 0, _ => none
  | fuel + 1, pos =>
    if weight g (draws r pos) < r (pos + (g.nt - 2)) then accept g r fuel (pos + (g.nt - 2) + 1)
    else some pos

/-- Rotation and boost of one particle, src/PhaseSpace.cpp:78-85. -/
noncomputable def turn (cZ sZ cY sY beta gamma : ℝ) (v : V4) : V4 :=
  { x := cY * (cZ * v.x - sZ * v.y) - sY * v.z
    y := gamma * (sZ * v.x + cZ * v.y + beta * v.e)
    z := sY * (cZ * v.x - sZ * v.y) + cY * v.z
    e := gamma * (v.e + beta * (sZ * v.x + cZ * v.y)) }

/-- One turn of the placing loop, src/PhaseSpace.cpp:65-88; `a` and `b` are the two random
numbers. -/
noncomputable def place (g : Gen) (M p : Nat → ℝ) (a b : ℝ) (i : Nat) (out : Nat → V4) : Nat → V4 :=
  let out1 := Function.update out i ⟨0, -p (i - 1), 0, √(p (i - 1) * p (i - 1) + g.mass i * g.mass i)⟩
  let cZ := 2 * a - 1
  let sZ := √(1 - cZ * cZ)
  let angY := 2 * Real.pi * b
  let cY := Real.cos angY
  let sY := Real.sin angY
  let beta := if i = g.nt - 1 then 0 else p i / √(p i * p i + M i * M i)
  let gamma := if i = g.nt - 1 then 1 else 1 / √(1 - beta * beta)
  fun j => if j ≤ i then turn cZ sZ cY sY beta gamma (out1 j) else out1 j

/-- `fill`, src/PhaseSpace.cpp:37-89.  More than 18 particles (`kMAXP`) and an empty final state
run outside the arrays and have no outcome in the model. -/
noncomputable def fill (g : Gen) (junk : Nat → ℝ) (out0 : Nat → V4) (r : Nat → ℝ) (fuel : Nat) : Option (List V4) :=
  if g.nt = 0 ∨ 18 < g.nt then none
  else
    match accept g r fuel 0 with
    | none => none
    | some pos =>
      let M := invMas g (draws r pos)
      let p := pd g (draws r pos) junk
      let next := pos + (g.nt - 2) + 1
      let start := Function.update out0 0 ⟨0, p 0, 0, √(p 0 * p 0 + g.mass 0 * g.mass 0)⟩
      let out := (List.range' 1 (g.nt - 1)).foldl
        (fun o i => place g M p (r (next + 2 * (i - 1))) (r (next + 2 * (i - 1) + 1)) i o) start
      some ((List.range g.nt).map out)

end AmpGen.PhaseSpace
