import Verif.Errors.Model
/-
Linear functions of parameters, and covariances by name.
-/
namespace AmpGen.Errors
open Finset
open AmpGen.Strings (Str)

/-- The function is linear in the parameters `ps`, with coefficients `g`, up to a term that does not depend on them. -/
def LinearIn (ps : List Nat) (g : Nat → ℝ) (f : Fcn) : Prop :=
  ∀ v w : Store, (∀ p, p ∉ ps → v p = w p) → f v - f w = ∑ i ∈ range ps.length, g i * (v (ps.getD i 0) - w (ps.getD i 0))

/-- A quadratic form of size `n`. -/
noncomputable def form (n : Nat) (C : Nat → Nat → ℝ) (a b : Nat → ℝ) : ℝ := ∑ i ∈ range n, ∑ j ∈ range n, a i * C i j * b j

/-- The covariance of the parameters called `n` and `m`: zero if there is none. -/
noncomputable def covBetween (name : Nat → Str) (P : Linear) (n m : Str) : ℝ :=
  ∑ i ∈ range P.params.length, ∑ j ∈ range P.params.length, if name (P.params.getD i 0) = n ∧ name (P.params.getD j 0) = m then P.cov i j else 0

end AmpGen.Errors
