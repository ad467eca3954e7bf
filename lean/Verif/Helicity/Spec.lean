import Verif.Helicity.Model
/-
The amplitude without a cache, and the events that are compared.
-/
namespace AmpGen.Helicity
open Complex
open AmpGen.Transform (TransformSequence)
open AmpGen.Polarisation (Mom Properties)
open AmpGen.Spin (LS)

namespace Spec

/-- The frame of a particle, from that of its parent. -/
noncomputable def frame (cfg : Config) (head : Bool) : Particle → Option TransformSequence → ℤ → Option TransformSequence
  | .one _ d, F, sgn => frame cfg false d F sgn
  | t, F, sgn => frameOf cfg head t F sgn

/-- The sum of values that may be undefined. -/
noncomputable def total {α : Type} (l : List α) (f : α → Option ℂ) : Option ℂ :=
  l.foldl (fun (s : Option ℂ) (a : α) => do let x ← s; let y ← f a; some (x + y)) (some 0)

/-- The amplitude in the frame of the particle: of two products, the sum over their helicities of the coupling, the rotation function and the amplitudes of the
products in their frames. -/
noncomputable def value (cfg : Config) : Particle → Option TransformSequence → ℝ → Option ℂ
  | .many .., _, _ => some 1
  | .one _ d, F, Mz => value cfg d F Mz
  | .stable pr _ pol p, F, Mz => stableAmplitude cfg pr pol p F Mz
  | .two pr L S ha d1 d2, F, Mz =>
    (couplings pr L S ha d1.props d2.props).bind fun cs =>
      total (cs.filter fun k => !skipped d1.props d2.props k) fun k => do
        let term ← rotation F d1.P (spin pr) Mz (k.m1 - k.m2)
        let h1 ← value cfg d1 (frame cfg false d1 F 1) k.m1
        let h2 ← value cfg d2 (frame cfg false d2 F (-1)) k.m2
        some (k.factor * term * h1 * h2)

/-- The indices of the particles that do not decay. -/
def leaves : Particle → List Nat
  | .stable _ i _ _ => [i]
  | .one _ d => leaves d
  | .two _ _ _ _ d1 d2 => leaves d1 ++ leaves d2
  | .many .. => []

/-- No particle decays to more than two products at once. -/
def Binary : Particle → Prop
  | .stable .. => True
  | .one _ d => Binary d
  | .two _ _ _ _ d1 d2 => Binary d1 ∧ Binary d2
  | .many .. => False

/-- The polarisation states of a particle. -/
def states (pr : Properties) : List ℤ := if pr.twoSpin = 0 then [0] else if pr.twoSpin = 1 then [1, -1] else [1, 0, -1]

/-- A decay with every choice of the polarisations of the particles that do not decay. -/
def polarised : Particle → List Particle
  | .stable pr i _ p => (states pr).map fun pol => .stable pr i pol p
  | .one pr d => (polarised d).map (.one pr)
  | .two pr L S ha d1 d2 => (polarised d1).flatMap fun x => (polarised d2).map fun y => .two pr L S ha x y
  | .many pr k p => [.many pr k p]

/-- A rotation of a momentum. -/
def turned (R : Matrix (Fin 3) (Fin 3) ℝ) (p : Mom) : Mom :=
  ![R 0 0 * p 0 + R 0 1 * p 1 + R 0 2 * p 2, R 1 0 * p 0 + R 1 1 * p 1 + R 1 2 * p 2, R 2 0 * p 0 + R 2 1 * p 1 + R 2 2 * p 2, p 3]

/-- The same decay in an event that is rotated. -/
def rotated (R : Matrix (Fin 3) (Fin 3) ℝ) : Particle → Particle
  | .stable pr i pol p => .stable pr i pol (turned R p)
  | .one pr d => .one pr (rotated R d)
  | .two pr L S ha d1 d2 => .two pr L S ha (rotated R d1) (rotated R d2)
  | .many pr k p => .many pr k (turned R p)

/-- The sum of numbers that may be undefined. -/
noncomputable def sumOf : List (Option ℝ) → Option ℝ
  | [] => some 0
  | x :: l => x.bind fun a => (sumOf l).map (a + ·)

/-- The intensity: the square of the amplitude, summed over all polarisations of the mother and of the particles that do not decay. -/
noncomputable def intensity (cfg : Config) (t : Particle) : Option ℝ :=
  sumOf ((polarised t).flatMap fun t' => (List.range (t.props.twoSpin + 1)).map fun (a : Nat) => (amplitude cfg t' (a - (t.props.twoSpin : ℝ) / 2)).map normSq)

/-- The intensity of one helicity of the mother. -/
noncomputable def helicityIntensity (cfg : Config) (t : Particle) (a : Nat) : Option ℝ :=
  sumOf ((polarised t).map fun t' => (amplitude cfg t' (a - (t.props.twoSpin : ℝ) / 2)).map normSq)

/-- The couplings of two helicities are those of states of the products, and of a state of the mother. -/
def Couples (pr d1 d2 : Properties) (cs : List LS) : Prop :=
  ∀ k ∈ cs, ∃ a b c : Nat, a ≤ d1.twoSpin ∧ b ≤ d2.twoSpin ∧ c ≤ pr.twoSpin ∧ k.m1 = a - (d1.twoSpin : ℝ) / 2 ∧ k.m2 = b - (d2.twoSpin : ℝ) / 2 ∧
    k.m1 - k.m2 = c - (pr.twoSpin : ℝ) / 2

/-- A decay that makes sense: the particles that do not decay are massive and have spin zero, one half or one; products of a decay have spins that can add up
to that of the mother; couplings that the user gives are between states that exist. -/
def Sound : Particle → Prop
  | .stable pr _ _ p => pr.twoSpin ≤ 2 ∧ AmpGen.Polarisation.Spec.OnShell pr.mass p ∧ pr.pdgID ≠ 0 ∧ isPhoton pr = false ∧ isNeutrino pr = false
  | .one pr d => pr.twoSpin = d.props.twoSpin ∧ Sound d
  | .two pr _ _ ha d1 d2 => Sound d1 ∧ Sound d2 ∧
    match ha with
    | none => 2 ∣ pr.twoSpin + d1.props.twoSpin + d2.props.twoSpin
    | some things => ∃ cs, userHelicityCouplings things = some cs ∧ Couples pr d1.props d2.props cs
  | .many .. => False

/-- A direction away from the axis, as far as the code tells them apart. -/
def Away (F : Option TransformSequence) (p : Mom) : Prop := ∀ q, (F.bind fun F => apply F p) = some q → q 0 * q 0 + q 1 * q 1 > 1e-15

/-- In the frame of every particle that decays, no product flies along the axis. -/
def OffAxis (cfg : Config) : Particle → Option TransformSequence → Prop
  | .two _ _ _ _ d1 d2, F => Away F d1.P ∧ Away F d2.P ∧ OffAxis cfg d1 (frame cfg false d1 F 1) ∧ OffAxis cfg d2 (frame cfg false d2 F (-1))
  | .one _ d, F => OffAxis cfg d F
  | _, _ => True

/-- The direction of a momentum is the one that the code finds: it is along the axis or clearly away from it. -/
def Visible (F : TransformSequence) (p : Mom) : Prop := ∀ q, apply F p = some q → q 0 * q 0 + q 1 * q 1 > 1e-15 ∨ (q 0 = 0 ∧ q 1 = 0 ∧ (q 2 * q 2 > 1e-15 ∨ q 2 = 0))

/-- The frames that are made, one after the other, from that of the event: each is that of a product in the frame of its mother. -/
inductive Chain (cfg : Config) : TransformSequence → Prop
  | lab : Chain cfg .empty
  | step {F F' : TransformSequence} {t : Particle} {sgn : ℤ} : Chain cfg F → Sound t → (sgn = 1 ∨ sgn = -1) → Visible F t.P → frame cfg false t (some F) sgn = some F' → Chain cfg F'

end Spec
end AmpGen.Helicity
