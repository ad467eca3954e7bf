import Verif.Dalitz.Model
/-
Specification: physical events of three particles and the Dalitz plot.
-/
namespace AmpGen.Dalitz

open AmpGen.Kinematics (P4)

/-- The masses of a decay to three particles that is possible; the first two are not both massless. -/
structure Masses (M m1 m2 m3 : ℝ) : Prop where
  nonneg1 : 0 ≤ m1
  nonneg2 : 0 ≤ m2
  nonneg3 : 0 ≤ m3
  pair : 0 < m1 + m2
  threshold : m1 + m2 + m3 < M

/-- The momentum of a particle of mass `m`. -/
def OnShell (m : ℝ) (p : P4) : Prop := p.E ^ 2 = p.x ^ 2 + p.y ^ 2 + p.z ^ 2 + m ^ 2 ∧ 0 ≤ p.E

/-- The square of the invariant mass of some particles. -/
noncomputable def massSq (l : List P4) : ℝ := (l.map P4.E).sum ^ 2 - (l.map P4.x).sum ^ 2 - (l.map P4.y).sum ^ 2 - (l.map P4.z).sum ^ 2

/-- An event of the decay. -/
structure Physical (M m1 m2 m3 : ℝ) (p1 p2 p3 : P4) : Prop where
  shell1 : OnShell m1 p1
  shell2 : OnShell m2 p2
  shell3 : OnShell m3 p3
  total : massSq [p1, p2, p3] = M ^ 2

/-- The energies of the first and the third particle in the rest frame of the first two, whose mass squared is `s12`. -/
noncomputable def E1 (m1 m2 s12 : ℝ) : ℝ := (s12 + m1 ^ 2 - m2 ^ 2) / (2 * √s12)
noncomputable def E3 (M m3 s12 : ℝ) : ℝ := (M ^ 2 - s12 - m3 ^ 2) / (2 * √s12)

/-- The boundary of the Dalitz plot: least and largest mass squared of the first and third particle for a given mass squared of the first two. -/
noncomputable def lower (M m1 m2 m3 s12 : ℝ) : ℝ :=
  (E1 m1 m2 s12 + E3 M m3 s12) ^ 2 - (√(E1 m1 m2 s12 ^ 2 - m1 ^ 2) + √(E3 M m3 s12 ^ 2 - m3 ^ 2)) ^ 2
noncomputable def upper (M m1 m2 m3 s12 : ℝ) : ℝ :=
  (E1 m1 m2 s12 + E3 M m3 s12) ^ 2 - (√(E1 m1 m2 s12 ^ 2 - m1 ^ 2) - √(E3 M m3 s12 ^ 2 - m3 ^ 2)) ^ 2

end AmpGen.Dalitz
