import Verif.Vertex.Model
/-
The spin tensor of a whole decay chain of bosons: `Particle::spinTensor` calls the vertex of each decay with the momenta and the spin tensors of
the decay products, from the final state up.  The vertices themselves are those of `Verif/Vertex/Model.lean`.
-/
namespace AmpGen.Cascade
open AmpGen.Vertex

/-- A spin tensor (AmpGen/Tensor.h): one number, a vector or a tensor of rank two.  Simplification: the spinors of fermions are left out, see
`Verif/Vertex`. -/
inductive State (K : Type) where
  | scalar (s : K)
  | vector (v : V4 K)
  | tensor (t : T4 K)

/-- A particle of a decay chain with what `Particle::spinTensor` looks at (src/Particle.cpp:502-528): twice the spin, whether the number of the
particle is positive, the name of the vertex (`orbitalString`), and the decay products.  A particle of the final state has its momentum and the
tensor of `externalSpinTensor` (src/Particle.cpp:530-595, modelled in `Verif/Polarisation`), which is any value here.  Simplification: of a decay to four or
more products only the total momentum is kept. -/
inductive Tree (K : Type) where
  | leaf (twoSpin : Nat) (positive : Bool) (p : V4 K) (s : State K)
  | one (twoSpin : Nat) (positive : Bool) (d : Tree K)
  | two (twoSpin : Nat) (positive : Bool) (orbital : String) (a b : Tree K)
  | three (twoSpin : Nat) (positive : Bool) (a b c : Tree K)
  | more (twoSpin : Nat) (positive : Bool) (p : V4 K)

/-- The field `m_props->twoSpin()` (AmpGen/ParticleProperties.h). -/
def Tree.twoSpin {K : Type} : Tree K → Nat
  | .leaf j _ _ _ => j
  | .one j _ _ => j
  | .two j _ _ _ _ => j
  | .three j _ _ _ _ => j
  | .more j _ _ => j

/-- Whether `m_pdgID > 0` (src/ParticleProperties.cpp:190-193). -/
def Tree.positive {K : Type} : Tree K → Bool
  | .leaf _ x _ _ => x
  | .one _ x _ => x
  | .two _ x _ _ _ => x
  | .three _ x _ _ _ => x
  | .more _ x _ => x

/-- `ParticleProperties::spinName` (src/ParticleProperties.cpp:182-197). -/
def spinName (twoSpin : Nat) (positive : Bool) : String :=
  if twoSpin = 0 then "S" else if twoSpin = 2 then "V" else if twoSpin = 4 then "T" else if twoSpin = 6 then "H"
  else if twoSpin = 1 then (if positive then "f" else "F")
  else if twoSpin = 3 then (if positive then "r" else "R")
  else if twoSpin = 5 then (if positive then "e" else "E")
  else if twoSpin = 7 then (if positive then "c" else "C")
  else "?"

/-- The vertices without fermions (src/Vertex.cpp:163-305). -/
inductive Name where
  | S_SS_S | S_VV_S | S_VV_S1 | S_VV_D | S_VV_P | S_VS_P | V_SS_P | V_VS_P | V_VS_S | V_VS_D | V_VV_P | V_VV_P1 | V_VV_P2 | V_VV_S
  | T_VS_D | T_TS_S | T_VS_P | T_SS_D | S_TV_P | S_TS_D | S_TV_D | S_TT_S | V_TS_P | V_TS_D
  deriving DecidableEq

/-- The vertices registered by `DEFINE_VERTEX` under their names (AmpGen/Vertex.h:33-35, src/Vertex.cpp:163-305).  Simplification: the vertices with fermions
are left out. -/
def catalogue : List (String × Name) :=
  [("S_SS_S", .S_SS_S), ("S_VV_S", .S_VV_S), ("S_VV_S1", .S_VV_S1), ("S_VV_D", .S_VV_D), ("S_VV_P", .S_VV_P), ("S_VS_P", .S_VS_P),
    ("V_SS_P", .V_SS_P), ("V_VS_P", .V_VS_P), ("V_VS_S", .V_VS_S), ("V_VS_D", .V_VS_D), ("V_VV_P", .V_VV_P), ("V_VV_P1", .V_VV_P1),
    ("V_VV_P2", .V_VV_P2), ("V_VV_S", .V_VV_S), ("T_VS_D", .T_VS_D), ("T_TS_S", .T_TS_S), ("T_VS_P", .T_VS_P), ("T_SS_D", .T_SS_D),
    ("S_TV_P", .S_TV_P), ("S_TS_D", .S_TS_D), ("S_TV_D", .S_TV_D), ("S_TT_S", .S_TT_S), ("V_TS_P", .V_TS_P), ("V_TS_D", .V_TS_D)]

/-- The name under which the vertex of a decay to two products is looked up (src/Particle.cpp:512). -/
def vertexName (mother first second : Nat × Bool) (orbital : String) : String :=
  spinName mother.1 mother.2 ++ "_" ++ spinName first.1 first.2 ++ spinName second.1 second.2 ++ "_" ++ orbital

section
variable {K : Type} [Field K]

/-- The call operator of each vertex (src/Vertex.cpp:163-305).  `none`: a spin tensor has another rank than the vertex expects. -/
def applyVertex (v : Name) (P Q : V4 K) (first second : State K) : Option (State K) :=
  match v, first, second with
  | .S_SS_S, .scalar s1, .scalar s2 => some (.scalar (S_SS_S s1 s2))
  | .S_VV_S, .vector v1, .vector v2 => some (.scalar (S_VV_S v1 v2))
  | .S_VV_S1, .vector v1, .vector v2 => some (.scalar (S_VV_S1 P v1 v2))
  | .S_VV_D, .vector v1, .vector v2 => some (.scalar (S_VV_D P Q v1 v2))
  | .S_VV_P, .vector v1, .vector v2 => some (.scalar (S_VV_P P Q v1 v2))
  | .S_VS_P, .vector v1, .scalar s2 => some (.scalar (S_VS_P P Q v1 s2))
  | .V_SS_P, .scalar s1, .scalar s2 => some (.vector (V_SS_P P Q s1 s2))
  | .V_VS_P, .vector v1, .scalar s2 => some (.vector (V_VS_P P Q v1 s2))
  | .V_VS_S, .vector v1, .scalar s2 => some (.vector (V_VS_S P v1 s2))
  | .V_VS_D, .vector v1, .scalar s2 => some (.vector (V_VS_D P Q v1 s2))
  | .V_VV_P, .vector v1, .vector v2 => some (.vector (V_VV_P P Q v1 v2))
  | .V_VV_P1, .vector v1, .vector v2 => some (.vector (V_VV_P1 P Q v1 v2))
  | .V_VV_P2, .vector v1, .vector v2 => some (.vector (V_VV_P2 P Q v1 v2))
  | .V_VV_S, .vector v1, .vector v2 => some (.vector (V_VV_S P v1 v2))
  | .T_VS_D, .vector v1, .scalar s2 => some (.tensor (T_VS_D P Q v1 s2))
  | .T_TS_S, .tensor t1, .scalar s2 => some (.tensor (T_TS_S P t1 s2))
  | .T_VS_P, .vector v1, .scalar s2 => some (.tensor (T_VS_P P Q v1 s2))
  | .T_SS_D, .scalar s1, .scalar s2 => some (.tensor (T_SS_D P Q s1 s2))
  | .S_TV_P, .tensor t1, .vector v2 => some (.scalar (S_TV_P P Q t1 v2))
  | .S_TS_D, .tensor t1, .scalar s2 => some (.scalar (S_TS_D P Q t1 s2))
  | .S_TV_D, .tensor t1, .vector v2 => some (.scalar (S_TV_D P Q t1 v2))
  | .S_TT_S, .tensor t1, .tensor t2 => some (.scalar (S_TT_S t1 t2))
  | .V_TS_P, .tensor t1, .scalar s2 => some (.vector (V_TS_P P Q t1 s2))
  | .V_TS_D, .tensor t1, .scalar s2 => some (.vector (V_TS_D P Q t1 s2))
  | _, _, _ => none

/-- `Vertex::Factory::getSpinFactor` (src/Vertex.cpp:34-45).  `none`: the program stops, as no vertex has the name. -/
def getSpinFactor (P Q : V4 K) (first second : State K) (name : String) : Option (State K) :=
  match catalogue.lookup name with
  | none => none
  | some v => applyVertex v P Q first second

/-- `Vertex::Factory::getSpinFactorNBody` (src/Vertex.cpp:47-62) for three pairs of a momentum and a spin tensor; the tensors are not used. -/
def getSpinFactorNBody (p1 p2 p3 : V4 K) (spin : Nat) : State K :=
  if spin = 1 then .vector (nBody p1 p2 p3) else if spin = 0 then .scalar 1 else .scalar 1

/-- `Particle::P` (src/Particle.cpp:233-252).  Simplification: every particle of the final state has an index. -/
def Tree.P : Tree K → V4 K
  | .leaf _ _ p _ => p
  | .one _ _ d => 0 + d.P
  | .two _ _ _ a b => 0 + a.P + b.P
  | .three _ _ a b c => 0 + a.P + b.P + c.P
  | .more _ _ p => p

/-- `Particle::spinTensor` (src/Particle.cpp:502-528); `Q` (lines 254-261) is the difference of the momenta of the two decay products, and `spin()` is half of `twoSpin`
(cut to a whole number by the conversion to `unsigned int`). -/
def spinTensor : Tree K → Option (State K)
  | .leaf _ _ _ s => some s
  | .one _ _ d => spinTensor d
  | .two j x orbital a b =>
    (spinTensor a).bind fun s1 => (spinTensor b).bind fun s2 =>
      getSpinFactor (Tree.P (.two j x orbital a b)) (a.P - b.P) s1 s2
        (vertexName (j, x) (a.twoSpin, a.positive) (b.twoSpin, b.positive) orbital)
  | .three j _ a b c =>
    (spinTensor a).bind fun _ => (spinTensor b).bind fun _ => (spinTensor c).bind fun _ => some (getSpinFactorNBody a.P b.P c.P (j / 2))
  | .more _ _ _ => some (.scalar 1)

end

end AmpGen.Cascade
