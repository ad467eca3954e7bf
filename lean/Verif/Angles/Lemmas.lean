import Verif.Angles.Spec
import Verif.Kinematics.Props
import Mathlib.Tactic.FieldSimp
import Mathlib.Tactic.LinearCombination
import Mathlib.LinearAlgebra.Matrix.Determinant.Basic
/-
Lemmas about angles between planes.
-/
namespace AmpGen.Angles

open AmpGen.Kinematics (Event P4 V3)

theorem dot_self_nonneg (p : V3) : 0 ≤ Dot p p := by
  unfold Dot; nlinarith [mul_self_nonneg p.x, mul_self_nonneg p.y, mul_self_nonneg p.z]

theorem dot_self_pos {p : V3} (h : p ≠ ⟨0, 0, 0⟩) : 0 < Dot p p := by
  rcases (dot_self_nonneg p).lt_or_eq with h1 | h1
  · exact h1
  · exfalso
    apply h
    unfold Dot at h1
    have hx : p.x = 0 := by nlinarith [mul_self_nonneg p.x, mul_self_nonneg p.y, mul_self_nonneg p.z]
    have hy : p.y = 0 := by nlinarith [mul_self_nonneg p.x, mul_self_nonneg p.y, mul_self_nonneg p.z]
    have hz : p.z = 0 := by nlinarith [mul_self_nonneg p.x, mul_self_nonneg p.y, mul_self_nonneg p.z]
    obtain ⟨x, y, z⟩ := p
    simp only at hx hy hz
    rw [hx, hy, hz]

/-- The factor of `Unit`. -/
noncomputable def tot (x : ℝ) : ℝ := if x > 0 then 1 / √x else 1

theorem unit_eq (p : V3) : Unit p = ⟨p.x * tot (Dot p p), p.y * tot (Dot p p), p.z * tot (Dot p p)⟩ := rfl

/-- The angle from four momenta at rest. -/
noncomputable def angle (a b c d : V3) : Option ℝ :=
  open Classical in
  if √(Dot (Cross d (Unit (Add a b))) (Cross d (Unit (Add a b)))) = 0 then none
  else some (ATan2 (Dot d (Unit (Cross a b)) / √(Dot (Cross d (Unit (Add a b))) (Cross d (Unit (Add a b)))))
    (Dot (Unit (Cross a b)) (Unit (Cross c d))))

theorem phi_eq (evt : Event) (i j k w : Nat) :
    phi evt i j k w = angle (atRest evt i j k w i) (atRest evt i j k w j) (atRest evt i j k w k) (atRest evt i j k w w) := rfl

theorem PHI_eq (evt : Event) : PHI evt = phi evt 0 1 3 2 := rfl

theorem lagrange (a b c d : V3) : Dot (Cross a b) (Cross c d) = Dot a c * Dot b d - Dot a d * Dot b c := by
  simp only [Dot, Cross]; ring

/-- The quantities the angle is made of. -/
noncomputable def sinPart (u2 z2 dz2 t : ℝ) : ℝ := t * tot u2 / √(dz2 * tot z2 ^ 2)

theorem mag_eq (a b d : V3) : Dot (Cross d (Unit (Add a b))) (Cross d (Unit (Add a b))) =
    Dot (Cross d (Add a b)) (Cross d (Add a b)) * tot (Dot (Add a b) (Add a b)) ^ 2 := by
  rw [unit_eq]
  generalize tot (Dot (Add a b) (Add a b)) = t
  simp only [Dot, Cross]; ring

theorem angle_eq (a b c d : V3) : angle a b c d =
    open Classical in
    if √(Dot (Cross d (Add a b)) (Cross d (Add a b)) * tot (Dot (Add a b) (Add a b)) ^ 2) = 0 then none
    else some (ATan2 (Dot d (Cross a b) * tot (Dot (Cross a b) (Cross a b)) /
        √(Dot (Cross d (Add a b)) (Cross d (Add a b)) * tot (Dot (Add a b) (Add a b)) ^ 2))
      (Dot (Cross a b) (Cross c d) * (tot (Dot (Cross a b) (Cross a b)) * tot (Dot (Cross c d) (Cross c d))))) := by
  unfold angle
  rw [mag_eq]
  have h1 : Dot d (Unit (Cross a b)) = Dot d (Cross a b) * tot (Dot (Cross a b) (Cross a b)) := by
    rw [unit_eq]
    generalize tot (Dot (Cross a b) (Cross a b)) = t
    simp only [Dot, Cross]; ring
  have h2 : Dot (Unit (Cross a b)) (Unit (Cross c d)) = Dot (Cross a b) (Cross c d) *
      (tot (Dot (Cross a b) (Cross a b)) * tot (Dot (Cross c d) (Cross c d))) := by
    rw [unit_eq, unit_eq]
    generalize tot (Dot (Cross a b) (Cross a b)) = t
    generalize tot (Dot (Cross c d) (Cross c d)) = t'
    simp only [Dot, Cross]; ring
  rw [h1, h2]

/-- The angle depends on scalar products and one triple product only. -/
theorem angle_congr (a b c d a' b' c' d' : V3) (haa : Dot a a = Dot a' a') (hab : Dot a b = Dot a' b')
    (hac : Dot a c = Dot a' c') (had : Dot a d = Dot a' d') (hbb : Dot b b = Dot b' b') (hbc : Dot b c = Dot b' c')
    (hbd : Dot b d = Dot b' d') (hcc : Dot c c = Dot c' c') (hcd : Dot c d = Dot c' d') (hdd : Dot d d = Dot d' d')
    (ht : Dot d (Cross a b) = Dot d' (Cross a' b')) : angle a b c d = angle a' b' c' d' := by
  have comm : ∀ p q : V3, Dot p q = Dot q p := by intro p q; simp only [Dot]; ring
  have addl : ∀ p q r : V3, Dot p (Add q r) = Dot p q + Dot p r := by intro p q r; simp only [Dot, Add]; ring
  have addr : ∀ p q r : V3, Dot (Add q r) p = Dot q p + Dot r p := by intro p q r; simp only [Dot, Add]; ring
  rw [angle_eq, angle_eq]
  simp only [lagrange, addl, addr, comm b a, comm b' a', comm d c, comm d' c', comm d a, comm d' a', comm d b, comm d' b',
    haa, hab, hac, had, hbb, hbc, hbd, hcc, hcd, hdd, ht]

/-- The angle between the planes, if there are two. -/
theorem angle_dihedral (a b c d : V3) (hx : a.x + b.x + c.x + d.x = 0) (hy : a.y + b.y + c.y + d.y = 0)
    (hz : a.z + b.z + c.z + d.z = 0) (hab : Plane a b) (hcd : Plane c d) :
    ∃ θ, angle a b c d = some θ ∧ -Real.pi < θ ∧ θ ≤ Real.pi ∧ Dihedral a b c d θ := by
  have hu := dot_self_pos hab
  have hw := dot_self_pos hcd
  have hcx : c.x = -(a.x + b.x) - d.x := by linarith
  have hcy : c.y = -(a.y + b.y) - d.y := by linarith
  have hcz : c.z = -(a.z + b.z) - d.z := by linarith
  have hwz : Dot (Cross d (Add a b)) (Cross d (Add a b)) = Dot (Cross c d) (Cross c d) := by
    simp only [Dot, Cross, Add, hcx, hcy, hcz]; ring
  have hzz : Dot (Add c d) (Add c d) = Dot (Add a b) (Add a b) := by
    simp only [Dot, Add, hcx, hcy, hcz]; ring
  have hr : 0 < Dot (Add a b) (Add a b) := by
    rcases (dot_self_nonneg (Add a b)).lt_or_eq with h | h
    · exact h
    · exfalso
      have h0 : Add a b = ⟨0, 0, 0⟩ := by
        by_contra hne
        exact absurd (dot_self_pos hne) (by rw [← h]; exact lt_irrefl _)
      rw [← hwz, h0] at hw
      simp [Dot, Cross] at hw
  have hid : Dot (Add a b) (Add a b) * Dot d (Cross a b) ^ 2 + Dot (Cross a b) (Cross c d) ^ 2 =
      Dot (Cross a b) (Cross a b) * Dot (Cross c d) (Cross c d) := by
    simp only [Dot, Cross, Add, hcx, hcy, hcz]; ring
  have htr : Dot (Add c d) (Cross (Cross a b) (Cross c d)) = Dot (Add a b) (Add a b) * Dot d (Cross a b) := by
    simp only [Dot, Cross, Add, hcx, hcy, hcz]; ring
  rw [angle_eq, hwz]
  unfold Dihedral
  rw [hzz, htr]
  generalize Dot (Cross a b) (Cross c d) = uw at *
  generalize Dot (Cross a b) (Cross a b) = u2 at *
  generalize Dot (Cross c d) (Cross c d) = w2 at *
  generalize Dot (Add a b) (Add a b) = z2 at *
  generalize Dot d (Cross a b) = t at *
  have hm := Real.sqrt_pos.mpr hu
  have hn := Real.sqrt_pos.mpr hw
  have hs := Real.sqrt_pos.mpr hr
  have em := Real.sq_sqrt hu.le
  have en := Real.sq_sqrt hw.le
  have es := Real.sq_sqrt hr.le
  have hmag : √(w2 * tot z2 ^ 2) = √w2 / √z2 := by
    unfold tot
    rw [if_pos hr, one_div, inv_pow, es, ← div_eq_mul_inv, Real.sqrt_div hw.le]
  rw [hmag]
  have hne : ¬ (√w2 / √z2 = 0) := (div_pos hn hs).ne'
  rw [if_neg hne]
  unfold tot
  rw [if_pos hu, if_pos hw]
  have e1 : t * (1 / √u2) / (√w2 / √z2) = t * √z2 / (√u2 * √w2) := by field_simp
  have e2 : uw * (1 / √u2 * (1 / √w2)) = uw / (√u2 * √w2) := by field_simp
  rw [e1, e2]
  generalize √u2 = m at *
  generalize √w2 = n at *
  generalize √z2 = r at *
  have hmn : m * n ≠ 0 := (mul_pos hm hn).ne'
  have hunit : (uw / (m * n)) ^ 2 + (t * r / (m * n)) ^ 2 = 1 := by
    rw [div_pow, div_pow, ← add_div, div_eq_one_iff_eq (pow_ne_zero 2 hmn)]
    linear_combination hid + t ^ 2 * es - u2 * en - n ^ 2 * em
  have hnorm : ‖(⟨uw / (m * n), t * r / (m * n)⟩ : ℂ)‖ = 1 := by
    rw [← sq_eq_sq₀ (norm_nonneg _) zero_le_one, ← Complex.normSq_eq_norm_sq, Complex.normSq_mk]
    linear_combination hunit
  have hz0 : (⟨uw / (m * n), t * r / (m * n)⟩ : ℂ) ≠ 0 := by
    intro h; rw [h] at hnorm; simp at hnorm
  refine ⟨_, rfl, Complex.neg_pi_lt_arg _, Complex.arg_le_pi _, ?_, ?_⟩
  · unfold ATan2
    rw [Complex.cos_arg hz0, hnorm, div_one]
    field_simp
  · unfold ATan2
    rw [Complex.sin_arg, hnorm, div_one]
    simp only
    rw [← es]
    field_simp

/-! ### The rest frame -/

theorem boost_rest {P : P4} (hP : Massive P) (p : P4) :
    ∃ M, 0 < M ∧ M ^ 2 = P.Dot P ∧ ∀ p : P4, Vect (Boost p (negBoostVector P)) =
      ⟨p.x + ((P.x * p.x + P.y * p.y + P.z * p.z) / (M * (P.E + M)) - p.E / M) * P.x,
       p.y + ((P.x * p.x + P.y * p.y + P.z * p.z) / (M * (P.E + M)) - p.E / M) * P.y,
       p.z + ((P.x * p.x + P.y * p.y + P.z * p.z) / (M * (P.E + M)) - p.E / M) * P.z⟩ := by
  obtain ⟨hE, hM⟩ := hP
  refine ⟨√(P.Dot P), Real.sqrt_pos.mpr hM, Real.sq_sqrt hM.le, fun p => ?_⟩
  have hs := Real.sqrt_pos.mpr hM
  have e := Real.sq_sqrt hM.le
  have hb : 1 - Dot (negBoostVector P) (negBoostVector P) = P.Dot P / P.E ^ 2 := by
    simp only [negBoostVector, Dot, P4.Dot]
    field_simp
    ring
  have hg : 1 / √(1 - Dot (negBoostVector P) (negBoostVector P)) = P.E / √(P.Dot P) := by
    rw [hb, Real.sqrt_div hM.le, Real.sqrt_sq hE.le, one_div_div]
  have hP2 : P.x * P.x + P.y * P.y + P.z * P.z = (P.E - √(P.Dot P)) * (P.E + √(P.Dot P)) := by
    have : P.Dot P = P.E * P.E - P.z * P.z - P.y * P.y - P.x * P.x := rfl
    linear_combination e + this
  have hg2 : ∀ q : ℝ, (if Dot (negBoostVector P) (negBoostVector P) > 0 then
      (P.E / √(P.Dot P) - 1) / Dot (negBoostVector P) (negBoostVector P) else 0) * (q / P.E ^ 2) * P.x =
      q / (√(P.Dot P) * (P.E + √(P.Dot P))) * P.x ∧
      (if Dot (negBoostVector P) (negBoostVector P) > 0 then
      (P.E / √(P.Dot P) - 1) / Dot (negBoostVector P) (negBoostVector P) else 0) * (q / P.E ^ 2) * P.y =
      q / (√(P.Dot P) * (P.E + √(P.Dot P))) * P.y ∧
      (if Dot (negBoostVector P) (negBoostVector P) > 0 then
      (P.E / √(P.Dot P) - 1) / Dot (negBoostVector P) (negBoostVector P) else 0) * (q / P.E ^ 2) * P.z =
      q / (√(P.Dot P) * (P.E + √(P.Dot P))) * P.z := by
    intro q
    have hd : Dot (negBoostVector P) (negBoostVector P) = (P.E - √(P.Dot P)) * (P.E + √(P.Dot P)) / P.E ^ 2 := by
      rw [← hP2]
      simp only [negBoostVector, Dot]
      field_simp
    by_cases h0 : Dot (negBoostVector P) (negBoostVector P) > 0
    · rw [if_pos h0]
      rw [hd] at h0 ⊢
      generalize √(P.Dot P) = M at *
      have hpos : 0 < P.E + M := by linarith
      have hn : P.E - M ≠ 0 := by
        intro h; rw [h] at h0; simp at h0
      refine ⟨?_, ?_, ?_⟩ <;> field_simp
    · have hz : (negBoostVector P).x = 0 ∧ (negBoostVector P).y = 0 ∧ (negBoostVector P).z = 0 := by
        by_contra hne
        apply h0
        apply dot_self_pos
        intro h
        rw [h] at hne
        exact hne ⟨rfl, rfl, rfl⟩
      simp only [negBoostVector, neg_eq_zero, div_eq_zero_iff, hE.ne', or_false] at hz
      rw [hz.1, hz.2.1, hz.2.2]
      simp
  unfold Boost Vect
  simp only [hg]
  have hbp : (negBoostVector P).x * p.x + (negBoostVector P).y * p.y + (negBoostVector P).z * p.z =
      -(P.x * p.x + P.y * p.y + P.z * p.z) / P.E := by
    simp only [negBoostVector]; field_simp; ring
  obtain ⟨gx, gy, gz⟩ := hg2 (P.x * p.x + P.y * p.y + P.z * p.z)
  rw [hbp]
  generalize (if Dot (negBoostVector P) (negBoostVector P) > 0 then
      (P.E / √(P.Dot P) - 1) / Dot (negBoostVector P) (negBoostVector P) else 0) = g2 at *
  simp only [negBoostVector, V3.mk.injEq]
  generalize √(P.Dot P) = M at *
  generalize P.x * p.x + P.y * p.y + P.z * p.z = q at *
  refine ⟨?_, ?_, ?_⟩
  · rw [sub_mul, ← gx]; field_simp; ring
  · rw [sub_mul, ← gy]; field_simp; ring
  · rw [sub_mul, ← gz]; field_simp; ring

/-- The determinant of four momenta. -/
def eps (p q r s : P4) : ℝ :=
  s.E * (p.x * (q.y * r.z - q.z * r.y) + p.y * (q.z * r.x - q.x * r.z) + p.z * (q.x * r.y - q.y * r.x)) -
  p.E * (s.x * (q.y * r.z - q.z * r.y) + s.y * (q.z * r.x - q.x * r.z) + s.z * (q.x * r.y - q.y * r.x)) -
  q.E * (p.x * (s.y * r.z - s.z * r.y) + p.y * (s.z * r.x - s.x * r.z) + p.z * (s.x * r.y - s.y * r.x)) -
  r.E * (p.x * (q.y * s.z - q.z * s.y) + p.y * (q.z * s.x - q.x * s.z) + p.z * (q.x * s.y - q.y * s.x))

/-- Scalar and triple products at rest are invariants. -/
theorem rest_products {P : P4} (hP : Massive P) :
    (∀ p q : P4, Dot (Vect (Boost p (negBoostVector P))) (Vect (Boost q (negBoostVector P))) =
      Kinematics.dotProduct p q P) ∧
    (∀ p q r : P4, √(P.Dot P) * Dot (Vect (Boost r (negBoostVector P)))
      (Cross (Vect (Boost p (negBoostVector P))) (Vect (Boost q (negBoostVector P)))) = eps p q r P) := by
  obtain ⟨M, hM, hM2, hB⟩ := boost_rest hP P
  have hsq : √(P.Dot P) = M := by rw [← hM2, Real.sqrt_sq hM.le]
  have hE : 0 < P.E + M := by linarith [hP.1]
  have hP2 : M ^ 2 = P.E * P.E - P.z * P.z - P.y * P.y - P.x * P.x := hM2
  constructor
  · intro p q
    rw [hB p, hB q]
    unfold Kinematics.dotProduct
    rw [← hM2]
    simp only [Dot, P4.Dot]
    have hx : P.x * P.x = P.E * P.E - P.z * P.z - P.y * P.y - M ^ 2 := by linarith
    generalize hkp : P.x * p.x + P.y * p.y + P.z * p.z = kp
    generalize hkq : P.x * q.x + P.y * q.y + P.z * q.z = kq
    have e1 : p.E * P.E - p.z * P.z - p.y * P.y - p.x * P.x = p.E * P.E - kp := by rw [← hkp]; ring
    have e2 : q.E * P.E - q.z * P.z - q.y * P.y - q.x * P.x = q.E * P.E - kq := by rw [← hkq]; ring
    rw [e1, e2]
    generalize hcp : kp / (M * (P.E + M)) - p.E / M = cp
    generalize hcq : kq / (M * (P.E + M)) - q.E / M = cq
    have main : (p.x + cp * P.x) * (q.x + cq * P.x) + (p.y + cp * P.y) * (q.y + cq * P.y) + (p.z + cp * P.z) * (q.z + cq * P.z)
        = (p.x * q.x + p.y * q.y + p.z * q.z) + cq * kp + cp * kq + cp * cq * (P.E * P.E - M ^ 2) := by
      rw [← hkp, ← hkq]
      linear_combination cp * cq * hx
    rw [main, ← hcp, ← hcq]
    field_simp
    ring
  · intro p q r
    rw [hsq, hB p, hB q, hB r]
    generalize hkp : P.x * p.x + P.y * p.y + P.z * p.z = kp
    generalize hkq : P.x * q.x + P.y * q.y + P.z * q.z = kq
    generalize hkr : P.x * r.x + P.y * r.y + P.z * r.z = kr
    generalize hcp : kp / (M * (P.E + M)) - p.E / M = cp
    generalize hcq : kq / (M * (P.E + M)) - q.E / M = cq
    generalize hcr : kr / (M * (P.E + M)) - r.E / M = cr
    have hcp' : cp * (M * (P.E + M)) = kp - p.E * (P.E + M) := by rw [← hcp]; field_simp
    have hcq' : cq * (M * (P.E + M)) = kq - q.E * (P.E + M) := by rw [← hcq]; field_simp
    have hcr' : cr * (M * (P.E + M)) = kr - r.E * (P.E + M) := by rw [← hcr]; field_simp
    obtain ⟨T, hT⟩ : ∃ T, T = p.x * (q.y * r.z - q.z * r.y) + p.y * (q.z * r.x - q.x * r.z) + p.z * (q.x * r.y - q.y * r.x) := ⟨_, rfl⟩
    obtain ⟨Tp, hTp⟩ : ∃ T, T = P.x * (q.y * r.z - q.z * r.y) + P.y * (q.z * r.x - q.x * r.z) + P.z * (q.x * r.y - q.y * r.x) := ⟨_, rfl⟩
    obtain ⟨Tq, hTq⟩ : ∃ T, T = p.x * (P.y * r.z - P.z * r.y) + p.y * (P.z * r.x - P.x * r.z) + p.z * (P.x * r.y - P.y * r.x) := ⟨_, rfl⟩
    obtain ⟨Tr, hTr⟩ : ∃ T, T = p.x * (q.y * P.z - q.z * P.y) + p.y * (q.z * P.x - q.x * P.z) + p.z * (q.x * P.y - q.y * P.x) := ⟨_, rfl⟩
    have heps : eps p q r P = P.E * T - p.E * Tp - q.E * Tq - r.E * Tr := by
      unfold eps; rw [hT, hTp, hTq, hTr]
    have hexp : Dot ⟨r.x + cr * P.x, r.y + cr * P.y, r.z + cr * P.z⟩ (Cross ⟨p.x + cp * P.x, p.y + cp * P.y, p.z + cp * P.z⟩
        ⟨q.x + cq * P.x, q.y + cq * P.y, q.z + cq * P.z⟩) = T + cp * Tp + cq * Tq + cr * Tr := by
      rw [hT, hTp, hTq, hTr]
      simp only [Dot, Cross]; ring
    have hsum : kp * Tp + kq * Tq + kr * Tr = (P.E * P.E - M ^ 2) * T := by
      have : P.E * P.E - M ^ 2 = P.x * P.x + P.y * P.y + P.z * P.z := by linarith
      rw [this, hT, hTp, hTq, hTr, ← hkp, ← hkq, ← hkr]; ring
    rw [heps, hexp]
    apply mul_right_cancel₀ hE.ne'
    linear_combination hcp' * Tp + hcq' * Tq + hcr' * Tr + hsum

theorem rest_sum {P : P4} (hP : Massive P) (a b c d : P4) (h : P = sum4 a b c d) :
    (Vect (Boost a (negBoostVector P))).x + (Vect (Boost b (negBoostVector P))).x + (Vect (Boost c (negBoostVector P))).x +
      (Vect (Boost d (negBoostVector P))).x = 0 ∧
    (Vect (Boost a (negBoostVector P))).y + (Vect (Boost b (negBoostVector P))).y + (Vect (Boost c (negBoostVector P))).y +
      (Vect (Boost d (negBoostVector P))).y = 0 ∧
    (Vect (Boost a (negBoostVector P))).z + (Vect (Boost b (negBoostVector P))).z + (Vect (Boost c (negBoostVector P))).z +
      (Vect (Boost d (negBoostVector P))).z = 0 := by
  obtain ⟨M, hM, hM2, hB⟩ := boost_rest hP P
  have hE : 0 < P.E + M := by linarith [hP.1]
  have hP2 : M ^ 2 = P.E * P.E - P.z * P.z - P.y * P.y - P.x * P.x := hM2
  rw [hB a, hB b, hB c, hB d]
  have h1 : P.x = a.x + b.x + c.x + d.x := by rw [h]; rfl
  have h2 : P.y = a.y + b.y + c.y + d.y := by rw [h]; rfl
  have h3 : P.z = a.z + b.z + c.z + d.z := by rw [h]; rfl
  have h4 : P.E = a.E + b.E + c.E + d.E := by rw [h]; rfl
  have hc : ((P.x * a.x + P.y * a.y + P.z * a.z) / (M * (P.E + M)) - a.E / M) +
      ((P.x * b.x + P.y * b.y + P.z * b.z) / (M * (P.E + M)) - b.E / M) +
      ((P.x * c.x + P.y * c.y + P.z * c.z) / (M * (P.E + M)) - c.E / M) +
      ((P.x * d.x + P.y * d.y + P.z * d.z) / (M * (P.E + M)) - d.E / M) = -1 := by
    have e : ((P.x * a.x + P.y * a.y + P.z * a.z) / (M * (P.E + M)) - a.E / M) +
      ((P.x * b.x + P.y * b.y + P.z * b.z) / (M * (P.E + M)) - b.E / M) +
      ((P.x * c.x + P.y * c.y + P.z * c.z) / (M * (P.E + M)) - c.E / M) +
      ((P.x * d.x + P.y * d.y + P.z * d.z) / (M * (P.E + M)) - d.E / M) =
      (P.x * (a.x + b.x + c.x + d.x) + P.y * (a.y + b.y + c.y + d.y) + P.z * (a.z + b.z + c.z + d.z)) / (M * (P.E + M)) -
        (a.E + b.E + c.E + d.E) / M := by ring
    rw [e, ← h1, ← h2, ← h3, ← h4]
    field_simp
    linear_combination hP2
  refine ⟨?_, ?_, ?_⟩
  · simp only; linear_combination P.x * hc - h1
  · simp only; linear_combination P.y * hc - h2
  · simp only; linear_combination P.z * hc - h3

/-! ### Other frames -/

/-- The momenta as a matrix. -/
def rows (p q r s : P4) : Matrix (Fin 4) (Fin 4) ℝ :=
  !![p.x, p.y, p.z, p.E; q.x, q.y, q.z, q.E; r.x, r.y, r.z, r.E; s.x, s.y, s.z, s.E]

theorem eps_det (p q r s : P4) : eps p q r s = (rows p q r s).det := by
  unfold eps rows
  simp [Matrix.det_succ_row_zero, Fin.sum_univ_succ, Fin.succAbove]
  ring

/-- A linear map of momenta. -/
def lin (A : Matrix (Fin 4) (Fin 4) ℝ) (p : P4) : P4 :=
  ⟨A 0 0 * p.x + A 0 1 * p.y + A 0 2 * p.z + A 0 3 * p.E, A 1 0 * p.x + A 1 1 * p.y + A 1 2 * p.z + A 1 3 * p.E,
   A 2 0 * p.x + A 2 1 * p.y + A 2 2 * p.z + A 2 3 * p.E, A 3 0 * p.x + A 3 1 * p.y + A 3 2 * p.z + A 3 3 * p.E⟩

theorem eps_lin (A : Matrix (Fin 4) (Fin 4) ℝ) (p q r s : P4) :
    eps (lin A p) (lin A q) (lin A r) (lin A s) = A.det * eps p q r s := by
  rw [eps_det, eps_det, ← Matrix.det_transpose A, mul_comm, ← Matrix.det_mul]
  congr 1
  ext i j
  fin_cases i <;> fin_cases j <;> simp [rows, lin, Matrix.mul_apply, Fin.sum_univ_succ] <;> ring

theorem eps_boostU {ux uy uz g v : ℝ} (hu : ux * ux + uy * uy + uz * uz = 1) (hg : g * g * (1 - v * v) = 1) (p q r s : P4) :
    eps (Kinematics.boostU ux uy uz g v p) (Kinematics.boostU ux uy uz g v q) (Kinematics.boostU ux uy uz g v r)
      (Kinematics.boostU ux uy uz g v s) = eps p q r s := by
  have hl : ∀ p, Kinematics.boostU ux uy uz g v p = lin
      !![1 + (g - 1) * ux * ux, (g - 1) * uy * ux, (g - 1) * uz * ux, g * v * ux;
         (g - 1) * ux * uy, 1 + (g - 1) * uy * uy, (g - 1) * uz * uy, g * v * uy;
         (g - 1) * ux * uz, (g - 1) * uy * uz, 1 + (g - 1) * uz * uz, g * v * uz;
         g * v * ux, g * v * uy, g * v * uz, g] p := by
    intro p
    simp [Kinematics.boostU, lin]
    refine ⟨?_, ?_, ?_, ?_⟩ <;> ring
  rw [hl, hl, hl, hl, eps_lin]
  have hd : Matrix.det !![1 + (g - 1) * ux * ux, (g - 1) * uy * ux, (g - 1) * uz * ux, g * v * ux;
         (g - 1) * ux * uy, 1 + (g - 1) * uy * uy, (g - 1) * uz * uy, g * v * uy;
         (g - 1) * ux * uz, (g - 1) * uy * uz, 1 + (g - 1) * uz * uz, g * v * uz;
         g * v * ux, g * v * uy, g * v * uz, g] = g * (1 + (ux * ux + uy * uy + uz * uz) * (g - 1 - g * v ^ 2)) := by
    simp [Matrix.det_succ_row_zero, Fin.sum_univ_succ, Fin.succAbove]
    ring
  rw [hd, hu]
  linear_combination eps p q r s * hg

theorem eps_rotateU {ux uy uz c t : ℝ} (hu : ux * ux + uy * uy + uz * uz = 1) (hc : c * c + t * t = 1) (p q r s : P4) :
    eps (Kinematics.rotateU ux uy uz c t p) (Kinematics.rotateU ux uy uz c t q) (Kinematics.rotateU ux uy uz c t r)
      (Kinematics.rotateU ux uy uz c t s) = eps p q r s := by
  have hl : ∀ p, Kinematics.rotateU ux uy uz c t p = lin
      !![c + (1 - c) * ux * ux, (1 - c) * uy * ux - t * uz, (1 - c) * uz * ux + t * uy, 0;
         (1 - c) * ux * uy + t * uz, c + (1 - c) * uy * uy, (1 - c) * uz * uy - t * ux, 0;
         (1 - c) * ux * uz - t * uy, (1 - c) * uy * uz + t * ux, c + (1 - c) * uz * uz, 0;
         0, 0, 0, 1] p := by
    intro p
    simp [Kinematics.rotateU, lin]
    refine ⟨?_, ?_, ?_⟩ <;> ring
  rw [hl, hl, hl, hl, eps_lin]
  have hd : Matrix.det !![c + (1 - c) * ux * ux, (1 - c) * uy * ux - t * uz, (1 - c) * uz * ux + t * uy, 0;
         (1 - c) * ux * uy + t * uz, c + (1 - c) * uy * uy, (1 - c) * uz * uy - t * ux, 0;
         (1 - c) * ux * uz - t * uy, (1 - c) * uy * uz + t * ux, c + (1 - c) * uz * uz, 0;
         0, 0, 0, 1] = (c * c + t * t * (ux * ux + uy * uy + uz * uz)) * (c + (1 - c) * (ux * ux + uy * uy + uz * uz)) := by
    simp [Matrix.det_succ_row_zero, Fin.sum_univ_succ, Fin.succAbove]
    ring
  rw [hd, hu, mul_one, hc]
  ring

/-- The angle is the same after any map of the momenta that keeps scalar products, the determinant and the sign of the energy. -/
theorem phi_congr (e e' : Event) (i j k w : Nat) (f : P4 → P4) (hf : ∀ p q, (f p).Dot (f q) = p.Dot q)
    (hadd : ∀ p q : P4, f (p.add q) = (f p).add (f q)) (heps : ∀ p q r s, eps (f p) (f q) (f r) (f s) = eps p q r s)
    (hM : Massive (four e i j k w)) (hpos : 0 < (f (four e i j k w)).E)
    (hi : ∀ n ∈ [i, j, k, w], pFromEvent e' n = f (pFromEvent e n)) : phi e' i j k w = phi e i j k w := by
  have hfour : four e' i j k w = f (four e i j k w) := by
    have hs : ∀ a b c d : P4, sum4 a b c d = ((a.add b).add c).add d := fun _ _ _ _ => rfl
    unfold four
    rw [hi i (by simp), hi j (by simp), hi k (by simp), hi w (by simp), hs, hs, hadd, hadd, hadd]
  have hM' : Massive (four e' i j k w) := by
    rw [hfour]
    exact ⟨hpos, by rw [hf]; exact hM.2⟩
  obtain ⟨d1, t1⟩ := rest_products hM
  obtain ⟨d2, t2⟩ := rest_products hM'
  have hd : ∀ m ∈ [i, j, k, w], ∀ n ∈ [i, j, k, w], Dot (atRest e' i j k w m) (atRest e' i j k w n) =
      Dot (atRest e i j k w m) (atRest e i j k w n) := by
    intro m hm n hn
    unfold atRest
    rw [d1, d2, hi m hm, hi n hn, hfour]
    unfold Kinematics.dotProduct
    rw [hf, hf, hf, hf]
  rw [phi_eq, phi_eq]
  have hs : √((four e i j k w).Dot (four e i j k w)) ≠ 0 := (Real.sqrt_pos.mpr hM.2).ne'
  have ht : Dot (atRest e' i j k w w) (Cross (atRest e' i j k w i) (atRest e' i j k w j)) =
      Dot (atRest e i j k w w) (Cross (atRest e i j k w i) (atRest e i j k w j)) := by
    apply mul_left_cancel₀ hs
    have h1 := t1 (pFromEvent e i) (pFromEvent e j) (pFromEvent e w)
    have h2 := t2 (pFromEvent e' i) (pFromEvent e' j) (pFromEvent e' w)
    have h3 : (four e' i j k w).Dot (four e' i j k w) = (four e i j k w).Dot (four e i j k w) := by rw [hfour, hf]
    rw [h3] at h2
    unfold atRest
    rw [h1, h2, hi i (by simp), hi j (by simp), hi w (by simp), hfour, heps]
  apply angle_congr <;> first | exact ht | exact hd _ (by simp) _ (by simp)

end AmpGen.Angles
