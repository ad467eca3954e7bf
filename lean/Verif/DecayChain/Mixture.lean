import Verif.DecayChain.Model
import Verif.Discrete.Model
/-
Model of the generator of src/TreePhaseSpace.cpp as an object: construction, events with their
density, and the re-weighting of its decay chains.
-/
namespace AmpGen.DecayChain

open Classical
open AmpGen.PhaseSpace (V4)

/-- Every number a random generator hands out for one event, by purpose: choices of a chain, masses and
acceptance for each attempt, and two numbers for each angle. -/
structure Draws where
  dice : Nat → ℝ
  u : Nat → Nat → ℝ
  v : Nat → ℝ
  a : Nat → ℝ
  b : Nat → ℝ

/-- `DecayChainStack::operator==`, AmpGen/DecayChainStack.h:213-217 with `Node::operator==` (126-137),
which compares every field. -/
def Stack.same (c d : Stack) : Prop :=
  c.N = d.N ∧ (∀ i < c.N, c.m0 i = d.m0 i) ∧ ∀ i < c.N - 1, c.nodes i = d.nodes i

/-- `TreePhaseSpace`, AmpGen/TreePhaseSpace.h:53-58.  `size` is the size of the event type, `rand` is
`none` for a null pointer, and `dice` holds the probabilities of the distribution. -/
structure TreeGen where
  size : Nat
  gen : List Stack
  rand : Option Draws
  dice : List ℝ
  wmax : ℝ

/-- `initialise_weights`, src/TreePhaseSpace.cpp:55-60; `none` is the use of the greatest element of an empty
list. -/
noncomputable def initialiseWeights (size : Nat) (gen : List Stack) (rand : Option Draws) : Option TreeGen :=
  match gen with
  | [] => none
  | first :: rest =>
    some ⟨size, gen, rand, Discrete.probabilities (gen.map fun _ => 1 / (gen.length : ℝ)), wmax first rest⟩

/-- `setRandom`, src/TreePhaseSpace.cpp:165-168. -/
def TreeGen.setRandom (t : TreeGen) (rand : Option Draws) : TreeGen := { t with rand := rand }

/-- The constructor for one decay, src/TreePhaseSpace.cpp:15-28; `orderings` are the
stacks made from the orderings of its identical particles, `global` is `gRandom`. -/
noncomputable def ofChain (global : Draws) (size : Nat) (orderings : List Stack) (rndm : Option Draws) : Option TreeGen :=
  let m_rand := some (rndm.getD global)
  (initialiseWeights size orderings m_rand).map fun t => t.setRandom m_rand

/-- Adding a stack unless it is there, src/TreePhaseSpace.cpp:41-44. -/
noncomputable def addStack (gen : List Stack) (s : Stack) : List Stack :=
  if gen.any fun it => decide (it.same s) then gen else gen ++ [s]

/-- The constructor for a list of decays, src/TreePhaseSpace.cpp:30-53: the argument of `setRandom` is the argument
of the constructor. -/
noncomputable def ofChains (global : Draws) (size : Nat) (chains : List (List Stack)) (rndm : Option Draws) : Option TreeGen :=
  let m_rand := some (rndm.getD global)
  let m_gen := chains.foldl (fun gen orderings => orderings.foldl addStack gen) []
  (initialiseWeights size m_gen m_rand).map fun t => t.setRandom rndm

/-- The density of the mixture, src/TreePhaseSpace.cpp:85-90 and 95-102. -/
noncomputable def TreeGen.density (t : TreeGen) (ev : Nat → V4) : ℝ :=
  (List.range t.gen.length).foldl (fun g i =>
    g + t.dice.getD i 0 * ((t.gen[i]?).map fun c => genPdf c ev).getD 0) 0

/-- What asking for an event gives. -/
inductive Outcome where
  | crash
  | running
  | unfilled
  | event (ev : Nat → V4) (genPdf : ℝ)

/-- `makeEvent` and `fill_event`, src/TreePhaseSpace.cpp:62-93 and 122-140.  `running` is the loop still going
after `fuel` attempts, `unfilled` an event returned as it was allocated, `crash` the use of a null pointer or
an index outside the chains. -/
noncomputable def TreeGen.makeEvent (t : TreeGen) (fuel : Nat) (ev0 : Nat → V4) : Outcome :=
  if t.size = 0 ∨ 10 < t.size then .unfilled
  else match t.rand, t.gen with
    | some d, first :: _ =>
      let choice := fun (k : Nat) => (Discrete.sample t.dice (d.dice k)).bind fun i => t.gen[i]?
      let chain := fun (k : Nat) => (choice k).getD first
      match AmpGen.DecayChain.makeEvent t.wmax chain d.u d.v d.a d.b ev0 fuel with
      | none => .running
      | some (k, ev) => if ∀ j ≤ k, (choice j).isSome then .event ev (t.density ev) else .crash
    | _, _ => .crash

/-- One term of `calculate_weights`, src/TreePhaseSpace.cpp:112-114, with the density `w` stored with the event. -/
noncomputable def TreeGen.term (t : TreeGen) (c : Stack) (e : (Nat → V4) × ℝ) : ℝ :=
  genPdf c e.1 * e.2 * e.2 / t.density e.1

/-- `calculate_weights`, src/TreePhaseSpace.cpp:104-120.  The events are taken one by one: blocks of events
are not modelled. -/
noncomputable def TreeGen.calculate (t : TreeGen) (events : List ((Nat → V4) × ℝ)) (c : Stack) : ℝ :=
  events.foldl (fun w e => w + t.term c e) 0

/-- The weights handed to the new distribution, src/TreePhaseSpace.cpp:158-161. -/
noncomputable def TreeGen.newWeights (t : TreeGen) (events : List ((Nat → V4) × ℝ)) : List ℝ :=
  (List.range t.gen.length).map fun j =>
    √(((t.gen[j]?).map (t.calculate events)).getD 0 / (events.length : ℝ)) * t.dice.getD j 0

/-- `recalculate_weights`, src/TreePhaseSpace.cpp:142-163; `none` is a division by zero or, for a size that is
not listed, an access outside the empty list of weights. -/
noncomputable def TreeGen.recalculate (t : TreeGen) (events : List ((Nat → V4) × ℝ)) : Option TreeGen :=
  if t.size = 0 ∨ 10 < t.size then none
  else if events = [] ∨ (∃ e ∈ events, t.density e.1 = 0) ∨ (t.newWeights events).foldl (· + ·) 0 = 0 then none
  else some { t with dice := Discrete.probabilities (t.newWeights events) }

/-- A sequence of re-weightings. -/
noncomputable def TreeGen.history : TreeGen → List (List ((Nat → V4) × ℝ)) → Option TreeGen
  | t, [] => some t
  | t, events :: rest => (t.recalculate events).bind fun t => t.history rest

/-- The destructor, src/TreePhaseSpace.cpp:180-183, on the addresses of the chains: `none` is releasing memory that is
not in use. -/
def release : List Nat → List Nat → Option (List Nat)
  | used, [] => some used
  | used, p :: ps => if p ∈ used then release (used.erase p) ps else none

end AmpGen.DecayChain
