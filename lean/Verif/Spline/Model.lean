import Mathlib.Algebra.Order.Floor.Ring
import Mathlib.Data.Real.Archimedean
/-
Model of src/Spline.cpp.

Simplifications: numbers are real; the external memory of a compiled expression is a function from addresses to numbers; the inverse matrix found by the
linear algebra library is an argument.
-/
namespace AmpGen.Spline

/-- External memory of a compiled expression. -/
abbrev Memory := Nat → ℝ

/-- `CompiledExpressionBase::setExternal`. -/
noncomputable def Memory.set (mem : Memory) (v : ℝ) (a : Nat) : Memory := fun b => if b = a then v else mem b

/-- The value of an array in the generated code, src/Array.cpp:20-30: an index outside the array is replaced by zero, and is truncated to an integer. -/
noncomputable def element (mem : Memory) (address size : Nat) (a : ℝ) : ℝ := mem (address + if 0 ≤ a ∧ a < size then ⌊a⌋₊ else 0)

/-- `fmod`, the remainder of a division truncated towards zero. -/
noncomputable def fmod (a b : ℝ) : ℝ := a - b * if 0 ≤ a / b then (⌊a / b⌋ : ℝ) else (⌈a / b⌉ : ℝ)

/-- The value of a spline at `x`: `Spline::eval`, src/Spline.cpp:63-83, and the constructor, :15-23; `address` is where the array of points is stored. -/
noncomputable def eval (mem : Memory) (address nKnots : Nat) (min max x : ℝ) : ℝ :=
  let points := element mem address (2 * nKnots)
  let spacing := (max - min) / ((nKnots : ℝ) - 1)
  let dx := fmod (x - min) spacing
  let bin := (x - min) / spacing
  let continuedValue := points ((nKnots - 1 : Nat) : ℝ)
  if x > min ∧ x < max then
    points bin + ((points (bin + 1) - points bin) / spacing - (points (bin + 1 + nKnots) + 2 * points (bin + nKnots)) * spacing / 6) * dx
      + points (bin + nKnots) * dx * dx / 2
      + dx * dx * dx * (points (bin + 1 + nKnots) - points (bin + nKnots)) / (6 * spacing)
  else continuedValue

/-- `gsl_matrix_set`. -/
def setEntry (M : Nat → Nat → ℝ) (i j : Nat) (v : ℝ) : Nat → Nat → ℝ := fun a b => if a = i ∧ b = j then v else M a b

/-- The matrix inverted by the constructor of `SplineTransfer`, src/Spline.cpp:94-104. -/
noncomputable def system (size : Nat) : Nat → Nat → ℝ :=
  (List.range size).foldl (fun (M : Nat → Nat → ℝ) (i : Nat) =>
    let M := setEntry M i i 4
    if i ≠ size - 1 then setEntry (setEntry M i (i + 1) 1) (i + 1) i 1 else M) (fun _ _ => 0)

/-- The vector `mvectors`, src/Spline.cpp:129-140; `y` are the values of the parameters and `T` is the transfer matrix. -/
noncomputable def curvatures (T : Nat → Nat → ℝ) (y : Nat → ℝ) (nKnots : Nat) (min max : ℝ) : Nat → ℝ :=
  let size := nKnots - 2
  let spacing := (max - min) / ((nKnots - 1 : Nat) : ℝ)
  (List.range size).foldl (fun (mvectors : Nat → ℝ) (i : Nat) =>
    (List.range size).foldl (fun (mvectors : Nat → ℝ) (j : Nat) =>
      let lj := y (j + 2) - 2 * y (j + 1) + y j
      fun k => if k = i + 1 then mvectors k + 6 * T i j * lj / (spacing * spacing) else mvectors k) mvectors) (fun _ => 0)

/-- `SplineTransfer::transfer`, src/Spline.cpp:127-149. -/
noncomputable def transfer (mem : Memory) (T : Nat → Nat → ℝ) (y : Nat → ℝ) (address nKnots : Nat) (min max : ℝ) : Memory :=
  (List.range nKnots).foldl (fun (mem : Memory) (i : Nat) =>
    (mem.set (y i) (address + i)).set (curvatures T y nKnots min max i) (address + nKnots + i)) mem

end AmpGen.Spline
