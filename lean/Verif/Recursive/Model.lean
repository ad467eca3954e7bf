import Verif.PhaseSpace.Model
import Verif.Kinematics.Model
/-
Model of src/RecursivePhaseSpace.cpp.

Simplifications: numbers are real; a momentum of an event is a four-vector and not four numbers of an array; the mass of a particle is a function of its
name; the random numbers of the phase space at each vertex are those of an arbitrary stream, which may depend on the vertex.
-/
namespace AmpGen.Recursive

open AmpGen.Kinematics (P4)
open AmpGen.PhaseSpace (V4)

/-- The decay chain, a `Particle` with its name and its daughters. -/
inductive Chain where
  | mk (name : String) (daughters : List Chain)

/-- A node of the generator and, for nodes that decay, the generator of its decay, AmpGen/RecursivePhaseSpace.h:36-42,55-59; a sink of -1 is `none`. -/
inductive Gen where
  | leaf (name : String) (sink : Option Nat)
  | decay (name : String) (nodes : List Gen)

/-- The name of a node, AmpGen/RecursivePhaseSpace.h:38. -/
def Gen.name : Gen → String
  | .leaf name _ => name
  | .decay name _ => name

/-- The search for the first name of the event type that is not used, src/RecursivePhaseSpace.cpp:31-37. -/
def findSink (types : List String) (used : List Nat) (name : String) : Option Nat :=
  (List.range types.length).find? fun i => !used.contains i && types[i]? == some name

mutual
/-- The assignment of sinks to the final states, src/RecursivePhaseSpace.cpp:28-38, in the order of `getFinalStates`, :71-82. -/
def assign (types : List String) (used : List Nat) : Gen → Gen × List Nat
  | .leaf name sink =>
    match findSink types used name with
    | some i => (.leaf name (some i), i :: used)
    | none => (.leaf name sink, used)
  | .decay name nodes =>
    let r := assignList types used nodes
    (.decay name r.1, r.2)
def assignList (types : List String) (used : List Nat) : List Gen → List Gen × List Nat
  | [] => ([], used)
  | g :: gs =>
    let r := assign types used g
    let rs := assignList types r.2 gs
    (r.1 :: rs.1, rs.2)
end

mutual
/-- The constructor, src/RecursivePhaseSpace.cpp:13-41; particles without daughters do not decay, :21-23. -/
def build (types : List String) : Chain → Gen
  | .mk name [] => .leaf name none
  | .mk name (d :: ds) => (assign types [] (.decay name (build types d :: buildList types ds))).1
def buildList (types : List String) : List Chain → List Gen
  | [] => []
  | d :: ds => build types d :: buildList types ds
end

/-- `boost` of one momentum along `p` with the speed of `p`, src/RecursivePhaseSpace.cpp:62-63, src/Kinematics.cpp:139-152. -/
noncomputable def boostTo (p k : P4) : P4 :=
  let v := √(p.x * p.x + p.y * p.y + p.z * p.z) / p.E
  let gamma := 1 / √(1 - v * v)
  let norm := √(p.x * p.x + p.y * p.y + p.z * p.z)
  let nv := k.x * p.x + k.y * p.y + k.z * p.z
  ⟨k.x + ((gamma - 1) * nv / norm + gamma * k.E * v) * p.x / norm, k.y + ((gamma - 1) * nv / norm + gamma * k.E * v) * p.y / norm,
    k.z + ((gamma - 1) * nv / norm + gamma * k.E * v) * p.z / norm, gamma * (k.E + v * nv / norm)⟩

/-- The sum of two momenta, src/RecursivePhaseSpace.cpp:64. -/
def plus (p q : P4) : P4 := ⟨p.x + q.x, p.y + q.y, p.z + q.z, p.E + q.E⟩

/-- The momenta of a new event, src/RecursivePhaseSpace.cpp:46. -/
def zero : P4 := ⟨0, 0, 0, 0⟩

/-- Random numbers and the contents of uninitialised memory at the vertex that is reached by a path, counted from the top. -/
structure World where
  r : List Nat → Nat → ℝ
  junk : List Nat → Nat → ℝ
  out : List Nat → Nat → V4
  fuel : Nat

/-- `m_phsp.makeEvent()`, src/RecursivePhaseSpace.cpp:45, with the masses of the constructor, :19,39. -/
noncomputable def vertex (mass : String → ℝ) (w : World) (path : List Nat) (name : String) (nodes : List Gen) : Option (List P4) :=
  (PhaseSpace.fill (PhaseSpace.setDecay (mass name) (nodes.map fun g => mass g.name)).1 (w.junk path) (w.out path) (w.r path) w.fuel).map
    fun l => l.map fun v => ⟨v.x, v.y, v.z, v.e⟩

/-- A momentum is stored at the place of its particle, if that has one, src/RecursivePhaseSpace.cpp:53-59. -/
def put (sink : Option Nat) (p : P4) (rt : Nat → P4) : Nat → P4 :=
  match sink with
  | some k => Function.update rt k p
  | none => rt

open Classical in
mutual
/-- `makeEvent`, src/RecursivePhaseSpace.cpp:43-69; nothing if the phase space does not return or a decaying particle is at rest, where the boost is zero by zero. -/
noncomputable def makeEvent (mass : String → ℝ) (w : World) (path : List Nat) : Gen → Option (Nat → P4)
  | .leaf _ _ => none
  | .decay name nodes =>
    match vertex mass w path name nodes with
    | none => none
    | some evt => fillNodes mass w path 0 nodes evt fun _ => zero
/-- The loop over the nodes, src/RecursivePhaseSpace.cpp:47-67. -/
noncomputable def fillNodes (mass : String → ℝ) (w : World) (path : List Nat) (i : Nat) : List Gen → List P4 → (Nat → P4) → Option (Nat → P4)
  | [], _, rt => some rt
  | _ :: _, [], _ => none
  | .leaf _ sink :: gs, p :: ps, rt => fillNodes mass w path (i + 1) gs ps (put sink p rt)
  | .decay name nodes :: gs, p :: ps, rt =>
    match makeEvent mass w (i :: path) (.decay name nodes) with
    | none => none
    | some evtTmp =>
      if p.x = 0 ∧ p.y = 0 ∧ p.z = 0 then none
      else fillNodes mass w path (i + 1) gs ps fun j => plus (rt j) (boostTo p (evtTmp j))
end

end AmpGen.Recursive
