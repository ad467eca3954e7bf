import Mathlib.Analysis.Real.Sqrt
import Mathlib.Data.Complex.Basic
import Mathlib.Data.Fintype.Basic
import Mathlib.LinearAlgebra.Matrix.Notation
import Mathlib.Algebra.BigOperators.Group.Finset.Basic
/-
Model of src/Vertex.cpp, src/FermionVertices.cpp and src/DiracMatrices.cpp.  The elements of the tensors are symbolic expressions there;
here they are their values.  A product of two tensors with a common index is the sum over the index, with the sign of the metric if
the index is once up and once down: this is `einstein_contraction_partial` of Verif/Tensor/Props.lean.  `make_cse` and `st` do not change a
value; debug symbols are not modelled.  The element `3` of a four-vector is the energy.
-/
namespace AmpGen.Vertex

/-- The elements of a tensor of rank one and of rank two. -/
abbrev V4 (K : Type) := Fin 4 → K
abbrev T4 (K : Type) := Fin 4 → Fin 4 → K

section
variable {K : Type} [Field K]

/-- The sign of an index that is once up and once down, src/Tensor.cpp:405-407,444. -/
def g (μ : Fin 4) : K := if μ = 3 then 1 else -1

/-- `dot` of two vectors, src/Tensor.cpp:242-260 and `metricSgn`, 64-70. -/
def dot (u v : V4 K) : K := ∑ μ, g μ * u μ * v μ

/-- `dot` of two tensors of rank two, src/Tensor.cpp:242-260. -/
def dot2 (A B : T4 K) : K := ∑ μ, ∑ ν, g μ * g ν * A μ ν * B μ ν

/-- `Metric4x4`, src/Vertex.cpp:63-65. -/
def metric (μ ν : Fin 4) : K := if μ = ν then g μ else 0

/-- The sign of a permutation as the code forms it, src/Tensor.cpp:608-621: the quotient of two products of differences.  It is zero where
a value is repeated, and so is the element of the tensor that is never written. -/
def leviCivita (μ ν α β : Fin 4) : K :=
  let d (x y : Fin 4) : Int := (x.val : Int) - (y.val : Int)
  (((d μ ν * d μ α * d μ β * d ν α * d ν β * d α β) / 12 : Int) : K)

/-- `imposeSymmetry( 0, 1 )`, src/Tensor.cpp:512-527: the element above the diagonal is read from below it. -/
def imposeSymmetry (f : T4 K) : T4 K := fun μ ν => if ν > μ then f ν μ else f μ ν

/-- `Orbital_PWave`, src/Vertex.cpp:67-71. -/
def pWave (p q : V4 K) : V4 K := fun μ => q μ - p μ * (dot p q * (1 / dot p p))

/-- `Spin1Projector`, src/Vertex.cpp:83-87. -/
def spin1 (P : V4 K) : T4 K := fun μ ν => metric μ ν - P μ * P ν * (1 / dot P P)

/-- `Orbital_DWave`, src/Vertex.cpp:74-81. -/
def dWave (p q : V4 K) : T4 K :=
  let L := pWave p q
  imposeSymmetry fun μ ν => L μ * L ν - dot L L / 3 * spin1 p μ ν

/-- `Spin2Projector`, src/Vertex.cpp:89-94. -/
def spin2 (P : V4 K) (μ ν α β : Fin 4) : K :=
  let S := spin1 P;
  -(1 / 3) * S μ ν * S α β + 1 / 2 * (S μ α * S ν β + S μ β * S ν α)

/-! ### Vertices without fermions.  `V1[0]` and `V2[0]` of scalars are `s1` and `s2`. -/

/-- `getSpinFactorNBody` with `mL == 1`, src/Vertex.cpp:54-56, of three momenta. -/
def nBody (p1 p2 p3 : V4 K) : V4 K := fun μ =>
  ∑ β, g β * (∑ α, g α * (∑ ν, g ν * leviCivita μ ν α β * p1 ν) * p2 α) * p3 β

/-- src/Vertex.cpp:163 -/
def S_SS_S (s1 s2 : K) : K := s1 * s2

/-- src/Vertex.cpp:165 -/
def S_VV_S (V1 V2 : V4 K) : K := ∑ μ, g μ * V1 μ * V2 μ

/-- src/Vertex.cpp:166 -/
def S_VV_S1 (P V1 V2 : V4 K) : K := ∑ ν, g ν * (∑ μ, g μ * spin1 P μ ν * V1 μ) * V2 ν

/-- src/Vertex.cpp:168-172 -/
def S_VV_D (P Q V1 V2 : V4 K) : K :=
  let L2 := dWave P Q
  ∑ ν, g ν * (∑ μ, g μ * V1 μ * L2 μ ν) * V2 ν

/-- The tensor `coupling` of src/Vertex.cpp:177 and 193. -/
def coupling (L P : V4 K) : T4 K := fun μ ν => ∑ β, g β * (∑ α, g α * leviCivita μ ν α β * L α) * P β

/-- src/Vertex.cpp:174-179 -/
def S_VV_P (P Q V1 V2 : V4 K) : K :=
  let L := pWave P Q
  ∑ ν, g ν * (∑ μ, g μ * V1 μ * coupling L P μ ν) * V2 ν

/-- src/Vertex.cpp:181-186 -/
def S_VS_P (P Q V1 : V4 K) (s2 : K) : K :=
  (∑ μ, g μ * V1 μ * pWave P Q μ) * s2

/-- src/Vertex.cpp:188 -/
def V_SS_P (P Q : V4 K) (s1 s2 : K) : V4 K := fun μ => pWave P Q μ * s1 * s2

/-- src/Vertex.cpp:190-195 -/
def V_VS_P (P Q V1 : V4 K) (s2 : K) : V4 K :=
  let L := pWave P Q
  fun μ => (∑ ν, g ν * coupling L P μ ν * V1 ν) * s2

/-- src/Vertex.cpp:198 -/
def V_VS_S (P V1 : V4 K) (s2 : K) : V4 K := fun μ => (∑ ν, g ν * spin1 P μ ν * V1 ν) * s2

/-- src/Vertex.cpp:200-205 -/
def V_VS_D (P Q V1 : V4 K) (s2 : K) : V4 K :=
  let L2 := dWave P Q
  let Sv := spin1 P
  fun μ => (∑ α, g α * (∑ ν, g ν * Sv μ ν * L2 ν α) * V1 α) * s2

/-- src/Vertex.cpp:207-211 -/
def V_VV_P (P Q V1 V2 : V4 K) : V4 K := fun μ => pWave P Q μ * dot V1 V2

/-- The vector `term` of src/Vertex.cpp:217 and 235. -/
def term (P V1 V2 : V4 K) : V4 K := fun μ =>
  ∑ β, g β * (∑ α, g α * (∑ ν, g ν * leviCivita μ ν α β * P ν) * V1 α) * V2 β

/-- src/Vertex.cpp:213-221 -/
def V_VV_P1 (P Q V1 V2 : V4 K) : V4 K :=
  let L := pWave P Q
  let Sv := spin1 P
  let phi1 : V4 K := fun ν => ∑ μ, g μ * term P V1 V2 μ * Sv μ ν
  fun β => ∑ α, g α * (∑ ν, g ν * (∑ μ, g μ * leviCivita μ ν α β * P μ) * L ν) * phi1 α

/-- src/Vertex.cpp:223-230 -/
def V_VV_P2 (P Q V1 V2 : V4 K) : V4 K :=
  let L := pWave P Q
  let phi2 : T4 K := fun α β => ∑ ν, g ν * (∑ μ, g μ * spin2 P μ ν α β * V1 μ) * V2 ν
  fun ν => ∑ μ, g μ * L μ * phi2 μ ν

/-- src/Vertex.cpp:232-238 -/
def V_VV_S (P V1 V2 : V4 K) : V4 K := fun ν => ∑ μ, g μ * term P V1 V2 μ * spin1 P μ ν

/-- src/Vertex.cpp:241-246 -/
def T_VS_D (P Q V1 : V4 K) (s2 : K) : T4 K :=
  let G : V4 K := fun μ => ∑ β, g β * (∑ α, g α * (∑ ν, g ν * leviCivita μ ν α β * P ν) * Q α) * V1 β
  let L := pWave P Q
  fun μ ν => -(1 / 2) * (G μ * L ν + L μ * G ν) * s2

/-- src/Vertex.cpp:248-254 -/
def T_TS_S (P : V4 K) (V1 : T4 K) (s2 : K) : T4 K :=
  let S := spin1 P
  fun μ ν => ((∑ β, g β * (∑ α, g α * S μ α * V1 α β) * S β ν) - S μ ν * dot2 V1 S / 3) * s2

/-- src/Vertex.cpp:256-262 -/
def T_VS_P (P Q V1 : V4 K) (s2 : K) : T4 K :=
  let L := pWave P Q
  let S := spin1 P
  let Vp : V4 K := fun μ => ∑ ν, g ν * S μ ν * V1 ν
  fun α β => s2 * ((L α * Vp β + L β * Vp α) / 2 - S α β * dot L V1 / 3)

/-- src/Vertex.cpp:264 -/
def T_SS_D (P Q : V4 K) (s1 s2 : K) : T4 K := fun μ ν => dWave P Q μ ν * s1 * s2

/-- src/Vertex.cpp:266-270 -/
def S_TV_P (P Q : V4 K) (V1 : T4 K) (V2 : V4 K) : K :=
  let L := pWave P Q
  ∑ ν, g ν * (∑ μ, g μ * V1 μ ν * L μ) * V2 ν

/-- src/Vertex.cpp:272-276 -/
def S_TS_D (P Q : V4 K) (V1 : T4 K) (s2 : K) : K := s2 * dot2 (dWave P Q) V1

/-- src/Vertex.cpp:278-283 -/
def S_TV_D (P Q : V4 K) (V1 : T4 K) (V2 : V4 K) : K :=
  let term1 : T4 K := fun α ν => ∑ β, g β * V1 α β * dWave P Q β ν
  let term2 : T4 K := fun μ ν => ∑ β, g β * (∑ α, g α * leviCivita μ ν α β * P α) * V2 β
  dot2 term1 term2

/-- src/Vertex.cpp:285 -/
def S_TT_S (V1 V2 : T4 K) : K := dot2 V1 V2

/-- src/Vertex.cpp:287-292 -/
def V_TS_P (P Q : V4 K) (V1 : T4 K) (s2 : K) : V4 K :=
  let S := spin1 P
  let L := pWave P Q
  fun μ => (∑ ν, ∑ α, g ν * g α * (S μ ν * L α) * V1 ν α) * s2

/-- src/Vertex.cpp:294-299.  The second decay product is not used. -/
def V_TS_D (P Q : V4 K) (V1 : T4 K) (_s2 : K) : V4 K :=
  let L : V4 K := fun μ => -1 * pWave P Q μ
  let coupling : T4 K := fun μ β => ∑ α, g α * (∑ ν, g ν * leviCivita μ ν α β * P ν) * Q α
  fun μ => ∑ α, g α * (∑ ν, g ν * coupling μ ν * V1 ν α) * L α

end

/-! ### Spinors -/

abbrev M4 := Matrix (Fin 4) (Fin 4) ℂ

/-- `Gamma`, src/DiracMatrices.cpp:14-19. -/
def Gamma : Fin 5 → M4
  | 0 => !![0, 0, 0, 1; 0, 0, 1, 0; 0, -1, 0, 0; -1, 0, 0, 0]
  | 1 => !![0, 0, 0, -Complex.I; 0, 0, Complex.I, 0; 0, Complex.I, 0, 0; -Complex.I, 0, 0, 0]
  | 2 => !![0, 0, 1, 0; 0, 0, 0, -1; -1, 0, 0, 0; 0, 1, 0, 0]
  | 3 => !![1, 0, 0, 0; 0, 1, 0, 0; 0, 0, -1, 0; 0, 0, 0, -1]
  | 4 => !![0, 0, 1, 0; 0, 0, 0, 1; 1, 0, 0, 0; 0, 1, 0, 0]

/-- `Sigma`, src/DiracMatrices.cpp:21-24. -/
def Sigma : Fin 3 → Matrix (Fin 2) (Fin 2) ℂ
  | 0 => !![0, 1; 1, 0]
  | 1 => !![0, -Complex.I; Complex.I, 0]
  | 2 => !![1, 0; 0, -1]

/-- `Sigma4`, src/DiracMatrices.cpp:26-38. -/
def Sigma4 : Fin 3 → M4
  | 0 => !![0, 1, 0, 0; 1, 0, 0, 0; 0, 0, 0, 1; 0, 0, 1, 0]
  | 1 => !![0, -Complex.I, 0, 0; Complex.I, 0, 0, 0; 0, 0, 0, -Complex.I; 0, 0, Complex.I, 0]
  | 2 => !![1, 0, 0, 0; 0, -1, 0, 0; 0, 0, 1, 0; 0, 0, 0, -1]

/-- `SO3`, src/DiracMatrices.cpp:40-43. -/
def SO3 : Fin 3 → M4
  | 0 => !![0, 0, 0, 0; 0, 0, -1, 0; 0, 1, 0, 0; 0, 0, 0, 0]
  | 1 => !![0, 0, 1, 0; 0, 0, 0, 0; -1, 0, 0, 0; 0, 0, 0, 0]
  | 2 => !![0, -1, 0, 0; 1, 0, 0, 0; 0, 0, 0, 0; 0, 0, 0, 0]

/-- `SU3`, src/DiracMatrices.cpp:45-53. -/
noncomputable def SU3 : Fin 8 → Matrix (Fin 3) (Fin 3) ℂ
  | 0 => !![0, 1, 0; 1, 0, 0; 0, 0, 0]
  | 1 => !![0, -Complex.I, 0; Complex.I, 0, 0; 0, 0, 0]
  | 2 => !![1, 0, 0; 0, -1, 0; 0, 0, 0]
  | 3 => !![0, 0, 1; 0, 0, 0; 1, 0, 0]
  | 4 => !![0, 0, -Complex.I; 0, 0, 0; Complex.I, 0, 0]
  | 5 => !![0, 0, 0; 0, 0, 1; 0, 1, 0]
  | 6 => !![0, 0, 0; 0, 0, -Complex.I; 0, Complex.I, 0]
  | 7 => !![1 / (√3 : ℝ), 0, 0; 0, 1 / (√3 : ℝ), 0; 0, 0, -2 / (√3 : ℝ)]

/-- `Gamma4Vec`, src/Vertex.cpp:97-104. -/
def Gamma4Vec (μ : Fin 4) : M4 :=
  let x : V4 ℂ := ![1, 0, 0, 0]
  let y : V4 ℂ := ![0, 1, 0, 0]
  let z : V4 ℂ := ![0, 0, 1, 0]
  let t : V4 ℂ := ![0, 0, 0, 1]
  x μ • Gamma 0 + y μ • Gamma 1 + z μ • Gamma 2 + t μ • Gamma 3

/-- `slash`, src/Vertex.cpp:106-113, of a vector. -/
noncomputable def slash (P : V4 ℂ) : M4 := ∑ μ, (g μ * P μ) • Gamma4Vec μ

/-- `gamma_twiddle`, src/Vertex.cpp:115-119. -/
noncomputable def gammaTwiddle (P : V4 ℂ) (ν : Fin 4) : M4 :=
  Gamma4Vec ν - (1 / dot P P) • ∑ μ, (g μ * (P ν * P μ)) • Gamma4Vec μ

/-- `Spin1hProjector`, src/Vertex.cpp:121-125.  `m` is `fcn::sqrt( dot( P, P ) )`. -/
noncomputable def spin1h (m : ℂ) (P : V4 ℂ) : M4 := (1 / 2 : ℂ) • ((1 / m) • slash P + 1)

/-- `Spin1hbProjector`, src/Vertex.cpp:140-144. -/
noncomputable def spin1hb (m : ℂ) (P : V4 ℂ) : M4 := (1 / 2 : ℂ) • (-((1 / m) • slash P) + 1)

/-- `Spin3hProjector` and `Spin3hbProjector`, src/Vertex.cpp:127-138 and 146-157, with the projector `F` of the one or the other. -/
noncomputable def spin3h (F : M4) (P : V4 ℂ) (μ ν : Fin 4) : M4 :=
  (-1 * imposeSymmetry (spin1 P) μ ν) • F + (1 / 3 : ℂ) • (F * gammaTwiddle P μ * gammaTwiddle P ν)

/-- `Bar`, src/Vertex.cpp:159-161. -/
noncomputable def bar (ψ : V4 ℂ) : V4 ℂ := fun a => ∑ b, (starRingEnd ℂ) (ψ b) * Gamma 3 b a

/-- A matrix between two spinors, `x(a) * M(a,b) * y(b)`. -/
def sandwich (x : V4 ℂ) (M : M4) (y : V4 ℂ) : ℂ := ∑ b, (∑ a, x a * M a b) * y b

/-- src/Vertex.cpp:301 -/
noncomputable def S_fF_S (V1 V2 : V4 ℂ) : ℂ := ∑ a, bar V2 a * V1 a

/-- src/Vertex.cpp:303 -/
noncomputable def S_fF_S1 (V1 V2 : V4 ℂ) : ℂ := sandwich (bar V2) (Gamma 4) V1

/-- src/Vertex.cpp:305-312 -/
noncomputable def V_fF_S (P V1 V2 : V4 ℂ) : V4 ℂ := fun ν => sandwich (bar V2) (gammaTwiddle P ν) V1

/-- src/Vertex.cpp:314 -/
noncomputable def V_fF_S1 (V1 V2 : V4 ℂ) : V4 ℂ := fun μ => sandwich (bar V2) (Gamma 4 * Gamma4Vec μ) V1

/-- src/Vertex.cpp:316-323 -/
noncomputable def V_fF_PL (P V1 V2 : V4 ℂ) : V4 ℂ := fun μ =>
  ∑ ν, g ν * spin1 P μ ν * sandwich (bar V1) (Gamma4Vec ν * (1 - Gamma 4)) V2

/-- src/Vertex.cpp:325-330 -/
noncomputable def V_fF_PR (P V1 V2 : V4 ℂ) : V4 ℂ := fun μ =>
  ∑ ν, g ν * spin1 P μ ν * sandwich (bar V1) (Gamma4Vec ν * (1 + Gamma 4)) V2

/-! Fermion vertices, src/FermionVertices.cpp.  The argument `F` is the projector: `spin1h m P` for the vertices of a fermion, with names
`f_…` and `r_…`, and `spin1hb m P` for those of an antifermion, `F_…` and `R_…`.  Two vertices of antifermions
use `spin1h m P`; they have definitions of their own. -/

open Matrix in
/-- `f_fS_S`, 17-22, `F_FS_S`, 193-198. -/
noncomputable def f_fS_S (F : M4) (V1 : V4 ℂ) (s2 : ℂ) : V4 ℂ := fun a => (F *ᵥ V1) a * s2

open Matrix in
/-- `f_fS_P`, 24-33, `F_FS_P`, 200-209.  The scalar is not used. -/
noncomputable def f_fS_P (F : M4) (P Q V1 : V4 ℂ) (_s2 : ℂ) : V4 ℂ := (F * Gamma 4 * slash (pWave P Q)) *ᵥ V1

open Matrix in
/-- `f_Vf_S`, 35-39, `F_VF_S`, 211-215. -/
noncomputable def f_Vf_S (F : M4) (P V1 V2 : V4 ℂ) : V4 ℂ := fun a => ∑ μ, g μ * ((F * Gamma 4 * gammaTwiddle P μ) *ᵥ V2) a * V1 μ

open Matrix in
/-- `f_Vf_P`, 41-46, `F_VF_P`, 217-222. -/
noncomputable def f_Vf_P (F : M4) (P Q V1 V2 : V4 ℂ) : V4 ℂ := fun a => (F *ᵥ V2) a * dot V1 (pWave P Q)

open Matrix in
/-- `f_Vf_P1`, 48-55, `F_VF_P1`, 224-231. -/
noncomputable def f_Vf_P1 (F : M4) (P Q V1 V2 : V4 ℂ) : V4 ℂ :=
  let L := pWave P Q
  let t : V4 ℂ := fun μ => ∑ β, g β * (∑ α, g α * (∑ ν, g ν * leviCivita μ ν α β * V1 ν) * L α) * P β
  fun a => ∑ μ, g μ * ((F * Gamma 4 * gammaTwiddle P μ) *ᵥ V2) a * t μ

open Matrix in
/-- `f_Vf_D`, 57-63, `F_VF_D`, 233-239. -/
noncomputable def f_Vf_D (F : M4) (P Q V1 V2 : V4 ℂ) : V4 ℂ :=
  let L : V4 ℂ := fun μ => ∑ ν, g ν * dWave P Q μ ν * V1 ν
  fun a => ∑ μ, g μ * ((F * Gamma 4 * gammaTwiddle P μ) *ᵥ V2) a * L μ

open Matrix in
/-- `f_Vf_S1`, 65-70, `F_VF_S1`, 241-246. -/
noncomputable def f_Vf_S1 (F : M4) (P V1 V2 : V4 ℂ) : V4 ℂ :=
  let vSlash : M4 := ∑ μ, (g μ * V1 μ) • gammaTwiddle P μ
  (F * vSlash) *ᵥ V2

open Matrix in
/-- `f_Vf_SL`, 72-76, `F_VF_SL`, 248-252. -/
noncomputable def f_Vf_SL (F : M4) (V1 V2 : V4 ℂ) : V4 ℂ := fun a => ∑ μ, g μ * ((F * Gamma4Vec μ * (1 - Gamma 4)) *ᵥ V2) a * V1 μ

open Matrix in
/-- `f_Vf_SR`, 78-82, `F_VF_SR`, 254-258. -/
noncomputable def f_Vf_SR (F : M4) (V1 V2 : V4 ℂ) : V4 ℂ := fun a => ∑ μ, g μ * ((F * Gamma4Vec μ * (1 + Gamma 4)) *ᵥ V2) a * V1 μ

open Matrix in
/-- `f_fS_SL`, 84-88, `F_FS_SL`, 260-264.  The spinor of the first decay product is not used.  `V2` is the second decay product, the
scalar: its only element is `V2 0`, the others are what lies behind it in memory. -/
noncomputable def f_fS_SL (F : M4) (_V1 V2 : V4 ℂ) : V4 ℂ := (F * (1 - Gamma 4)) *ᵥ V2

open Matrix in
/-- `f_fS_SR`, 91-95, `F_FS_SR`, 267-271, with the same remark. -/
noncomputable def f_fS_SR (F : M4) (_V1 V2 : V4 ℂ) : V4 ℂ := (F * (1 + Gamma 4)) *ᵥ V2

open Matrix in
/-- `f_fS_S1`, 97. -/
noncomputable def f_fS_S1 (F : M4) (V1 : V4 ℂ) (s2 : ℂ) : V4 ℂ := fun a => ((F * Gamma 4) *ᵥ V1) a * s2

/-- `F_FS_S1`, 273: the projector is `spin1h`, not `spin1hb`. -/
noncomputable def F_FS_S1 (m : ℂ) (P V1 : V4 ℂ) (s2 : ℂ) : V4 ℂ := f_fS_S1 (spin1h m P) V1 s2

open Matrix in
/-- `f_fS_P1`, 99-102, `F_FS_P1`, 275-278. -/
noncomputable def f_fS_P1 (F : M4) (P Q V1 : V4 ℂ) (s2 : ℂ) : V4 ℂ := fun a => ((F * slash (pWave P Q)) *ᵥ V1) a * s2

open Matrix in
/-- `f_Tf_P`, 104-111, `F_TF_P`, 280-287. -/
noncomputable def f_Tf_P (F : M4) (P Q : V4 ℂ) (V1 : T4 ℂ) (V2 : V4 ℂ) : V4 ℂ :=
  let T := imposeSymmetry V1
  fun a => ∑ ν, g ν * (∑ μ, g μ * ((F * gammaTwiddle P μ) *ᵥ V2) a * T μ ν) * pWave P Q ν

open Matrix in
/-- `f_Vf_P2`, 113-117, `F_VF_P2`, 289-293. -/
noncomputable def f_Vf_P2 (F : M4) (P Q V1 V2 : V4 ℂ) : V4 ℂ := fun a => ((F * Gamma 4) *ᵥ V2) a * dot V1 (pWave P Q)

open Matrix in
/-- `f_Vf_P3`, 119-126, `F_VF_P3`, 295-302. -/
noncomputable def f_Vf_P3 (F : M4) (P Q V1 V2 : V4 ℂ) : V4 ℂ :=
  let L := pWave P Q
  let t : V4 ℂ := fun μ => ∑ β, g β * (∑ α, g α * (∑ ν, g ν * leviCivita μ ν α β * L ν) * V1 α) * P β
  fun a => ∑ μ, g μ * ((F * gammaTwiddle P μ) *ᵥ V2) a * t μ

open Matrix in
/-- `f_Vf_D1`, 129-135. -/
noncomputable def f_Vf_D1 (F : M4) (P Q V1 V2 : V4 ℂ) : V4 ℂ :=
  let L : V4 ℂ := fun μ => ∑ ν, g ν * dWave P Q μ ν * V1 ν
  fun a => ∑ c, (∑ μ, g μ * (F * gammaTwiddle P μ) a c * L μ) * V2 c

/-- `F_VF_D1`, 305-311: the projector is `spin1h`, not `spin1hb`. -/
noncomputable def F_VF_D1 (m : ℂ) (P Q V1 V2 : V4 ℂ) : V4 ℂ := f_Vf_D1 (spin1h m P) P Q V1 V2

open Matrix in
/-- `r_fS_P`, 138-146, `R_FS_P`, 314-322.  The scalar is not used. -/
noncomputable def r_fS_P (F : M4) (P Q V1 : V4 ℂ) (_s2 : ℂ) : Fin 4 → V4 ℂ :=
  let L := pWave P Q
  fun ν => ((-1 * L ν) • F + (1 / 3 : ℂ) • (F * gammaTwiddle P ν * slash L)) *ᵥ V1

open Matrix in
/-- `r_fS_D`, 148-159, `R_FS_D`, 324-335.  The scalar is not used. -/
noncomputable def r_fS_D (F : M4) (P Q V1 : V4 ℂ) (_s2 : ℂ) : Fin 4 → V4 ℂ :=
  let L := pWave P Q
  fun μ => ((L μ • (F * slash L) - (dot L L / 3) • (F * gammaTwiddle P μ)) * Gamma 4) *ᵥ V1

open Matrix in
/-- `f_rS_D`, 162-172, `F_RS_D`, 338-348. -/
noncomputable def f_rS_D (F : M4) (P Q : V4 ℂ) (V1 : Fin 4 → V4 ℂ) (s2 : ℂ) : V4 ℂ := fun a =>
  (∑ μ, ∑ α, g μ * g α * ((F * Gamma 4 * gammaTwiddle P μ) *ᵥ V1 α) a * dWave P Q μ α) * s2

open Matrix in
/-- `f_rS_P`, 174-183, `F_RS_P`, 350-359. -/
noncomputable def f_rS_P (F : M4) (P Q : V4 ℂ) (V1 : Fin 4 → V4 ℂ) (s2 : ℂ) : V4 ℂ := fun a =>
  (∑ μ, g μ * (F *ᵥ V1 μ) a * pWave P Q μ) * s2

open Matrix in
/-- `f_rS_P1`, 185-191, `F_RS_P1`, 361-367. -/
noncomputable def f_rS_P1 (F : M4) (P Q : V4 ℂ) (V1 : Fin 4 → V4 ℂ) (s2 : ℂ) : V4 ℂ := fun a =>
  (∑ μ, g μ * ((F * Gamma 4) *ᵥ V1 μ) a * pWave P Q μ) * s2

end AmpGen.Vertex
