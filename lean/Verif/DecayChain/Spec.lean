import Verif.DecayChain.Model
/-
What the decay-chain properties talk about: the tree of a decay, its particles and its
resonances.
-/
namespace AmpGen.DecayChain

open AmpGen.PhaseSpace (V4)

/-- Indices of the stable particles of a decay. -/
def Tree.leaves : Tree → List Nat
  | .leaf i _ => [i]
  | .res _ a b => a.leaves ++ b.leaves

/-- The masses written at the stable particles are those of the final state. -/
def Tree.MassesAre (m0 : Nat → ℝ) : Tree → Prop
  | .leaf i m => m = m0 i
  | .res _ a b => a.MassesAre m0 ∧ b.MassesAre m0

/-- A resonance with its two daughters occurs in a tree. -/
inductive Tree.Has : Tree → Info → Tree → Tree → Prop
  | here (i a b) : Tree.Has (.res i a b) i a b
  | left {i a b j c d} : Tree.Has a j c d → Tree.Has (.res i a b) j c d
  | right {i a b j c d} : Tree.Has b j c d → Tree.Has (.res i a b) j c d

/-- A decay the generator can be given: the top decays, the stable particles are numbered `0` to `N-1`
with non-negative masses `m0`, no heavier together than the top of mass `mass`, and a resonance with a
Breit-Wigner distribution has a positive mass and width. -/
structure Decay (N : Nat) (mass : ℝ) (m0 : Nat → ℝ) (t : Tree) : Prop where
  two : 2 ≤ N
  leaves : t.leaves.Perm (List.range N)
  masses : t.MassesAre m0
  nonneg : ∀ i, 0 ≤ m0 i
  fits : ((List.range N).map m0).sum ≤ mass
  positive : ∀ i a b, t.Has i a b → 0 ≤ i.mass ∧ (i.quasi = false → 0 < i.mass * i.width)

/-- Total momentum of some particles. -/
def total (ev : Nat → V4) (fs : List Nat) : V4 :=
  ⟨(fs.map fun i => (ev i).x).sum, (fs.map fun i => (ev i).y).sum, (fs.map fun i => (ev i).z).sum, (fs.map fun i => (ev i).e).sum⟩

/-- Invariant mass squared of some particles. -/
def massSq (ev : Nat → V4) (fs : List Nat) : ℝ :=
  (total ev fs).e ^ 2 - (total ev fs).x ^ 2 - (total ev fs).y ^ 2 - (total ev fs).z ^ 2

/-- Energy left for motion when the final state is at rest. -/
def spare (N : Nat) (mass : ℝ) (m0 : Nat → ℝ) : ℝ := mass - ((List.range N).map m0).sum

end AmpGen.DecayChain
