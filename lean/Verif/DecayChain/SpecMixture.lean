import Verif.DecayChain.Mixture
import Verif.DecayChain.Spec
/-
What the properties of mixtures of decay chains talk about.
-/
namespace AmpGen.DecayChain

open AmpGen.PhaseSpace (V4)

/-- Every chain is a decay of the same particle to the same products, which leaves some energy for motion. -/
def MadeOf (mass : ℝ) (m0 : Nat → ℝ) (size : Nat) (gen : List Stack) : Prop :=
  0 < spare size mass m0 ∧ ∀ c ∈ gen, ∃ t junk, Decay size mass m0 t ∧ c = Stack.make size mass m0 t junk

/-- The density of a mixture: each chain's density times its probability. -/
noncomputable def mixture (gen : List Stack) (probs : List ℝ) (ev : Nat → V4) : ℝ :=
  ((gen.zip probs).map fun cp => cp.2 * genPdf cp.1 ev).sum

/-- Positive probabilities, one for each chain. -/
def Probabilities (gen : List Stack) (probs : List ℝ) : Prop :=
  probs.length = gen.length ∧ (∀ p ∈ probs, 0 < p) ∧ probs.sum = 1

/-- The importance of a chain for some events with their densities: the sum of chain's
density over density of the mixture, times the square of the density stored. -/
noncomputable def importance (gen : List Stack) (probs : List ℝ) (events : List ((Nat → V4) × ℝ)) (c : Stack) : ℝ :=
  (events.map fun e => genPdf c e.1 * e.2 ^ 2 / mixture gen probs e.1).sum

/-- Two chains are the same: the same particles with the same masses, decaying in the same way. -/
def SameChain (c d : Stack) : Prop :=
  c.N = d.N ∧ (∀ i < c.N, c.m0 i = d.m0 i) ∧ ∀ i < c.N - 1, c.nodes i = d.nodes i

end AmpGen.DecayChain
