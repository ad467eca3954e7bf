import Verif.PhaseSpace.Model
import Mathlib.Algebra.BigOperators.Group.Finset.Basic
/-
Specification for phase-space events.
-/
namespace AmpGen.PhaseSpace

/-- Total momentum of an event is that of a particle of mass `m0` at rest. -/
def TotalAtRest (m0 : ℝ) (event : List V4) : Prop :=
  (event.map V4.x).sum = 0 ∧ (event.map V4.y).sum = 0 ∧ (event.map V4.z).sum = 0 ∧ (event.map V4.e).sum = m0

/-- A four-momentum of a particle of mass `m`. -/
def OnShell (m : ℝ) (v : V4) : Prop :=
  v.e ^ 2 = v.x ^ 2 + v.y ^ 2 + v.z ^ 2 + m ^ 2 ∧ 0 ≤ v.e

/-- The masses of a decay that is energetically allowed. -/
structure Allowed (m0 : ℝ) (masses : List ℝ) : Prop where
  nonneg : ∀ m ∈ masses, 0 ≤ m
  bodies : 2 ≤ masses.length
  capacity : masses.length ≤ 18
  threshold : masses.sum < m0

/-- Uniform variates, strictly between zero and one as produced by `TRandom::Rndm`. -/
def Variates (r : Nat → ℝ) : Prop := ∀ k, 0 < r k ∧ r k < 1

/-- Invariant mass squared of a group of particles. -/
def invMassSq (group : List V4) : ℝ :=
  (group.map V4.e).sum ^ 2 - (group.map V4.x).sum ^ 2 - (group.map V4.y).sum ^ 2 - (group.map V4.z).sum ^ 2

/-- The Källén function. -/
def kallen (a b c : ℝ) : ℝ := a ^ 2 + b ^ 2 + c ^ 2 - 2 * a * b - 2 * b * c - 2 * c * a

/-- Momentum of the products of a two-body decay in the rest frame of the parent. -/
noncomputable def breakup (m m1 m2 : ℝ) : ℝ := √(kallen (m ^ 2) (m1 ^ 2) (m2 ^ 2)) / (2 * m)

end AmpGen.PhaseSpace
