import Mathlib.MeasureTheory.Integral.Bochner.Set
import Mathlib.MeasureTheory.Measure.Lebesgue.Basic
import Mathlib.MeasureTheory.Constructions.Pi
/-
What an adaptive integration over boxes should do.
-/
namespace AmpGen.Cubature.Spec

/-- A box, by its middle and the half of its sides. -/
@[ext] structure Box (n : ℕ) where
  mid : Fin n → ℝ
  half : Fin n → ℝ

variable {n : ℕ}

/-- The points of the box. -/
def Box.points (B : Box n) : Set (Fin n → ℝ) := Set.Icc (B.mid - B.half) (B.mid + B.half)

/-- The box between two corners. -/
noncomputable def between (xmin xmax : Fin n → ℝ) : Box n := ⟨fun j => (xmax j + xmin j) / 2, fun j => (xmax j - xmin j) / 2⟩

/-- The integral of a function over the box. -/
noncomputable def Box.integral (B : Box n) (F : (Fin n → ℝ) → ℝ) : ℝ := ∫ x in B.points, F x

/-- The two halves of a box cut across an axis. -/
noncomputable def Box.lower (B : Box n) (k : Fin n) : Box n :=
  ⟨Function.update B.mid k (B.mid k - B.half k / 2), Function.update B.half k (B.half k / 2)⟩
noncomputable def Box.upper (B : Box n) (k : Fin n) : Box n :=
  ⟨Function.update B.mid k (B.mid k + B.half k / 2), Function.update B.half k (B.half k / 2)⟩

/-- A box with what a rule says about it: the value, its uncertainty, and the axis to cut across. -/
structure Piece (n : ℕ) where
  box : Box n
  value : ℝ
  error : ℝ
  axis : Fin n

/-- A box with a rule applied to it. -/
def Box.piece (rule : (Fin n → ℝ) → (Fin n → ℝ) → ℝ × ℝ × Fin n) (B : Box n) : Piece n :=
  ⟨B, (rule B.mid B.half).1, (rule B.mid B.half).2.1, (rule B.mid B.half).2.2⟩

/-- The collections of pieces an adaptive integration goes through: at first the box itself; then again and again a piece with the largest
uncertainty is cut in two halves. -/
inductive Adaptive (rule : (Fin n → ℝ) → (Fin n → ℝ) → ℝ × ℝ × Fin n) (B : Box n) : Multiset (Piece n) → Prop where
  | start : Adaptive rule B {B.piece rule}
  | cut (P : Piece n) (S : Multiset (Piece n)) : Adaptive rule B (P ::ₘ S) → (∀ Q ∈ S, Q.error ≤ P.error) →
      Adaptive rule B ((P.box.lower P.axis).piece rule ::ₘ (P.box.upper P.axis).piece rule ::ₘ S)

end AmpGen.Cubature.Spec
