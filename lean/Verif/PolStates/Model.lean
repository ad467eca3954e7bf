import Mathlib.Data.List.Basic
/-
Model of setting the polarisations of a decay chain, src/Particle.cpp:325-344,833-855 and src/ParticleProperties.cpp:27-38,158-160,172-174.

Simplifications: of a decay chain only the spin of the head and the stable particles, in the order of the descriptor, are kept.
-/
namespace AmpGen.PolStates

/-- A stable particle, AmpGen/Particle.h:303-305: its place in the event, twice its spin, and its polarisation. -/
structure Leaf where
  index : Nat
  twoSpin : Int
  pol : Int
  deriving DecidableEq

/-- `isFermion`, src/ParticleProperties.cpp:158-160. -/
def isFermion (twoSpin : Int) : Bool := twoSpin.tmod 2 = 1

/-- The polarisations of a particle, src/ParticleProperties.cpp:27-38; `photon` is the case of the photon. -/
def polarisations (photon : Bool) (twoSpin : Int) : List Int :=
  if twoSpin = 0 then [0]
  else if photon then [1, -1]
  else if twoSpin = 1 then [1, -1]
  else if twoSpin = 2 then [1, 0, -1]
  else if twoSpin = 4 then [2, 1, 0, -1, -2]
  else [0]

/-- `setPolarisationState( state )`, src/Particle.cpp:833-847: the polarisation that is kept. -/
def checked (twoSpin state : Int) : Int :=
  if isFermion twoSpin ∧ (state > twoSpin ∨ state = 0) then 999
  else if ¬ isFermion twoSpin ∧ state > twoSpin.tdiv 2 then 999
  else state

/-- The loop over the sorted stable particles, src/Particle.cpp:853, from entry `i` of the states; each entry is the place in the event and the number of the
particle in the descriptor.  `none`: a state beyond the end is read. -/
def assign (states : List Int) : Nat → List (Nat × Nat) → List Leaf → Option (List Leaf)
  | _, [], ls => some ls
  | i, (_, j) :: fs, ls => do
    let s ← states[i]?
    assign states (i + 1) fs (ls.modify j fun l => { l with pol := checked l.twoSpin s })

/-- `setPolarisationState( states )`, src/Particle.cpp:849-855: the polarisation of the head and the stable particles.  `sort` is the sorting by place in
`getFinalStateParticles`, src/Particle.cpp:340-342. -/
def setStates (sort : List (Nat × Nat) → List (Nat × Nat)) (twoSpin : Int) (ls : List Leaf) (states : List Int) : Option (Int × List Leaf) := do
  let s ← states[0]?
  let ls ← assign states 1 (sort (ls.zipIdx.map fun l => (l.1.index, l.2))) ls
  pure (checked twoSpin s, ls)

end AmpGen.PolStates
