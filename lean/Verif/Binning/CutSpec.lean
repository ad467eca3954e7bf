import Mathlib.Algebra.BigOperators.Group.List.Basic
import Mathlib.Data.Rat.Defs
/-
What the words in the property of the line search mean.
-/
namespace AmpGen.Binning.Spec

variable {E : Type}

/-- The events at or below a cut on the coordinate `f`. -/
def below (f : E → ℚ) (p : ℚ) (l : List E) : List E := l.filter fun e => f e ≤ p

/-- The events above the cut. -/
def above (f : E → ℚ) (p : ℚ) (l : List E) : List E := l.filter fun e => p < f e

/-- The squared difference of the weights of two samples over their sum. -/
def pull (w : E → ℚ) (source target : List E) : ℚ := ((source.map w).sum - (target.map w).sum) ^ 2 / ((source.map w).sum + (target.map w).sum)

/-- The χ² of the two bins that a cut makes. -/
def chi2 (f w : E → ℚ) (source target : List E) (p : ℚ) : ℚ := pull w (below f p source) (below f p target) + pull w (above f p source) (above f p target)

/-- A cut that may be chosen: it is midway between two neighbours in the target sample, with more than `n` target events below and at least `n` above it, at least `n` source events on
either side, and as `ok` says. -/
def Allowed (f : E → ℚ) (n : Nat) (ok : ℚ → Prop) (source target : List E) (p : ℚ) : Prop :=
  (∃ l a b r, target = l ++ a :: b :: r ∧ p = (f a + f b) / 2) ∧ n < (below f p target).length ∧ n ≤ (above f p target).length ∧ n ≤ (below f p source).length ∧
    n ≤ (above f p source).length ∧ ok p

/-- The best of the cuts that may be chosen. -/
def Best (f w : E → ℚ) (n : Nat) (ok : ℚ → Prop) (source target : List E) (p : ℚ) : Prop :=
  Allowed f n ok source target p ∧ ∀ q, Allowed f n ok source target q → chi2 f w source target q ≤ chi2 f w source target p

end AmpGen.Binning.Spec
