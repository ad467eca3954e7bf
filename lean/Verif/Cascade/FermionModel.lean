import Verif.Cascade.Model
/-
The spin tensor of a whole decay chain of a fermion: each decay has one fermion, and bosons with decay chains of their own (`Verif/Cascade/Model.lean`).
-/
namespace AmpGen.Cascade
open AmpGen.Vertex Matrix

/-- The spin tensor of a fermion (AmpGen/Tensor.h): a spinor, or four spinors with a vector index in front. -/
inductive Spinor where
  | half (ψ : V4 ℂ)
  | threeHalf (R : Fin 4 → V4 ℂ)

/-- A fermion of a decay chain, with what `Particle::spinTensor` looks at (src/Particle.cpp:502-528).  The fermion among two decay products is the first one (`first`) or the second
one (`second`).  Simplification: no decays to three and more products, and no bosons that decay to fermions. -/
inductive FermionTree where
  | leaf (twoSpin : Nat) (positive : Bool) (p : V4 ℂ) (s : Spinor)
  | one (twoSpin : Nat) (positive : Bool) (d : FermionTree)
  | first (twoSpin : Nat) (positive : Bool) (orbital : String) (f : FermionTree) (b : Tree ℂ)
  | second (twoSpin : Nat) (positive : Bool) (orbital : String) (b : Tree ℂ) (f : FermionTree)

/-- The field `m_props->twoSpin()` (AmpGen/ParticleProperties.h). -/
def FermionTree.twoSpin : FermionTree → Nat
  | .leaf j _ _ _ => j
  | .one j _ _ => j
  | .first j _ _ _ _ => j
  | .second j _ _ _ _ => j

/-- Whether `m_pdgID > 0` (src/ParticleProperties.cpp:190-193). -/
def FermionTree.positive : FermionTree → Bool
  | .leaf _ x _ _ => x
  | .one _ x _ => x
  | .first _ x _ _ _ => x
  | .second _ x _ _ _ => x

/-- The vertices with a decaying fermion (src/FermionVertices.cpp:17-370), each for fermions and antifermions.  Left out: `f_fS_SL`, `f_fS_SR` and those of antifermions, which use the
number of a boson without spin as a spinor. -/
inductive FermionName where
  | fS_S | fS_P | fS_S1 | fS_P1 | Vf_S | Vf_P | Vf_P1 | Vf_D | Vf_S1 | Vf_SL | Vf_SR | Vf_P2 | Vf_P3 | Vf_D1 | Tf_P
  | r_fS_P | r_fS_D | rS_D | rS_P | rS_P1
  deriving DecidableEq

/-- The vertices under their names (src/FermionVertices.cpp:17-370), with `true` for those of antifermions. -/
def fermionCatalogue : List (String × FermionName × Bool) :=
  [("f_fS_S", .fS_S, false), ("f_fS_P", .fS_P, false), ("f_fS_S1", .fS_S1, false), ("f_fS_P1", .fS_P1, false), ("f_Vf_S", .Vf_S, false), ("f_Vf_P", .Vf_P, false),
    ("f_Vf_P1", .Vf_P1, false), ("f_Vf_D", .Vf_D, false), ("f_Vf_S1", .Vf_S1, false), ("f_Vf_SL", .Vf_SL, false), ("f_Vf_SR", .Vf_SR, false),
    ("f_Vf_P2", .Vf_P2, false), ("f_Vf_P3", .Vf_P3, false), ("f_Vf_D1", .Vf_D1, false), ("f_Tf_P", .Tf_P, false), ("r_fS_P", .r_fS_P, false),
    ("r_fS_D", .r_fS_D, false), ("f_rS_D", .rS_D, false), ("f_rS_P", .rS_P, false), ("f_rS_P1", .rS_P1, false),
    ("F_FS_S", .fS_S, true), ("F_FS_P", .fS_P, true), ("F_FS_S1", .fS_S1, true), ("F_FS_P1", .fS_P1, true), ("F_VF_S", .Vf_S, true), ("F_VF_P", .Vf_P, true),
    ("F_VF_P1", .Vf_P1, true), ("F_VF_D", .Vf_D, true), ("F_VF_S1", .Vf_S1, true), ("F_VF_SL", .Vf_SL, true), ("F_VF_SR", .Vf_SR, true),
    ("F_VF_P2", .Vf_P2, true), ("F_VF_P3", .Vf_P3, true), ("F_VF_D1", .Vf_D1, true), ("F_TF_P", .Tf_P, true), ("R_FS_P", .r_fS_P, true),
    ("R_FS_D", .r_fS_D, true), ("F_RS_D", .rS_D, true), ("F_RS_P", .rS_P, true), ("F_RS_P1", .rS_P1, true)]

/-- The projector a vertex uses: `Spin1hProjector` for fermions and `Spin1hbProjector` for antifermions (src/Vertex.cpp:121-146), but the former in `F_FS_S1` and `F_VF_D1`
(src/FermionVertices.cpp:273,307).  The square root of the code is the function `root`. -/
noncomputable def projector (root : ℂ → ℂ) (v : FermionName) (anti : Bool) (P : V4 ℂ) : M4 :=
  if anti = true ∧ v ≠ .fS_S1 ∧ v ≠ .Vf_D1 then spin1hb (root (dot P P)) P else spin1h (root (dot P P)) P

/-- The call operator of each vertex (src/FermionVertices.cpp:17-370) with the projector `F`; `fermionFirst` says whether the spinor is the first argument.  `none`: a spin tensor has another
rank than the vertex expects. -/
noncomputable def applyFermion (v : FermionName) (F : M4) (P Q : V4 ℂ) (fermionFirst : Bool) (f : Spinor) (b : State ℂ) : Option Spinor :=
  match v, fermionFirst, f, b with
  | .fS_S, true, .half ψ, .scalar s => some (.half (f_fS_S F ψ s))
  | .fS_P, true, .half ψ, .scalar s => some (.half (f_fS_P F P Q ψ s))
  | .fS_S1, true, .half ψ, .scalar s => some (.half (f_fS_S1 F ψ s))
  | .fS_P1, true, .half ψ, .scalar s => some (.half (f_fS_P1 F P Q ψ s))
  | .Vf_S, false, .half ψ, .vector v => some (.half (f_Vf_S F P v ψ))
  | .Vf_P, false, .half ψ, .vector v => some (.half (f_Vf_P F P Q v ψ))
  | .Vf_P1, false, .half ψ, .vector v => some (.half (f_Vf_P1 F P Q v ψ))
  | .Vf_D, false, .half ψ, .vector v => some (.half (f_Vf_D F P Q v ψ))
  | .Vf_S1, false, .half ψ, .vector v => some (.half (f_Vf_S1 F P v ψ))
  | .Vf_SL, false, .half ψ, .vector v => some (.half (f_Vf_SL F v ψ))
  | .Vf_SR, false, .half ψ, .vector v => some (.half (f_Vf_SR F v ψ))
  | .Vf_P2, false, .half ψ, .vector v => some (.half (f_Vf_P2 F P Q v ψ))
  | .Vf_P3, false, .half ψ, .vector v => some (.half (f_Vf_P3 F P Q v ψ))
  | .Vf_D1, false, .half ψ, .vector v => some (.half (f_Vf_D1 F P Q v ψ))
  | .Tf_P, false, .half ψ, .tensor t => some (.half (f_Tf_P F P Q t ψ))
  | .r_fS_P, true, .half ψ, .scalar s => some (.threeHalf (r_fS_P F P Q ψ s))
  | .r_fS_D, true, .half ψ, .scalar s => some (.threeHalf (r_fS_D F P Q ψ s))
  | .rS_D, true, .threeHalf R, .scalar s => some (.half (f_rS_D F P Q R s))
  | .rS_P, true, .threeHalf R, .scalar s => some (.half (f_rS_P F P Q R s))
  | .rS_P1, true, .threeHalf R, .scalar s => some (.half (f_rS_P1 F P Q R s))
  | _, _, _, _ => none

/-- `Vertex::Factory::getSpinFactor` (src/Vertex.cpp:34-45) for the vertices with a decaying fermion. -/
noncomputable def getFermionFactor (root : ℂ → ℂ) (P Q : V4 ℂ) (fermionFirst : Bool) (f : Spinor) (b : State ℂ) (name : String) : Option Spinor :=
  match fermionCatalogue.lookup name with
  | none => none
  | some v => applyFermion v.1 (projector root v.1 v.2 P) P Q fermionFirst f b

/-- `Particle::P` (src/Particle.cpp:233-252). -/
noncomputable def FermionTree.P : FermionTree → V4 ℂ
  | .leaf _ _ p _ => p
  | .one _ _ d => 0 + d.P
  | .first _ _ _ f b => 0 + f.P + b.P
  | .second _ _ _ b f => 0 + b.P + f.P

/-- `Particle::spinTensor` (src/Particle.cpp:502-528). -/
noncomputable def fermionTensor (root : ℂ → ℂ) : FermionTree → Option Spinor
  | .leaf _ _ _ s => some s
  | .one _ _ d => fermionTensor root d
  | .first j x orbital f b =>
    (fermionTensor root f).bind fun s1 => (spinTensor b).bind fun s2 =>
      getFermionFactor root (FermionTree.P (.first j x orbital f b)) (f.P - b.P) true s1 s2
        (vertexName (j, x) (f.twoSpin, f.positive) (b.twoSpin, b.positive) orbital)
  | .second j x orbital b f =>
    (spinTensor b).bind fun s1 => (fermionTensor root f).bind fun s2 =>
      getFermionFactor root (FermionTree.P (.second j x orbital b f)) (b.P - f.P) false s2 s1
        (vertexName (j, x) (b.twoSpin, b.positive) (f.twoSpin, f.positive) orbital)

end AmpGen.Cascade
