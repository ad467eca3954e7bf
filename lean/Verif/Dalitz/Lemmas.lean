import Verif.Dalitz.Spec
/-
Lemmas on the coordinates of the square Dalitz plot.
-/
namespace AmpGen.Dalitz

open AmpGen.Kinematics (P4)

variable {M m1 m2 m3 : ℝ}

theorem Masses.pos (h : Masses M m1 m2 m3) : 0 < M := by linarith [h.nonneg3, h.pair, h.threshold]

theorem Masses.range (h : Masses M m1 m2 m3) : m1 + m2 < M - m3 := by linarith [h.threshold]

theorem safeSqrt_eq (x : ℝ) : safeSqrt x = √x := by
  unfold safeSqrt
  split
  · rfl
  · rw [Real.sqrt_eq_zero_of_nonpos (by linarith)]

theorem rootOf_eq {x : ℝ} (h : 0 ≤ x) : rootOf x = some √x := if_pos h

theorem make_min (h : Masses M m1 m2 m3) : (make (M ^ 2) (m1 ^ 2) (m2 ^ 2) (m3 ^ 2)).min = m1 + m2 := by
  simp only [make, Integrator.setMother]; rw [Real.sqrt_sq h.nonneg1, Real.sqrt_sq h.nonneg2]

theorem make_max (h : Masses M m1 m2 m3) : (make (M ^ 2) (m1 ^ 2) (m2 ^ 2) (m3 ^ 2)).max = M - m3 := by
  simp only [make, Integrator.setMother]; rw [Real.sqrt_sq h.pos.le, Real.sqrt_sq h.nonneg3]

/-- The mass of the pair at a coordinate. -/
noncomputable def pairMass (M m1 m2 m3 x : ℝ) : ℝ := m1 + m2 + (M - m3 - (m1 + m2)) * (Real.cos (Real.pi * x) + 1) / 2

theorem getMAB_eq (h : Masses M m1 m2 m3) (x : ℝ × ℝ) :
    (make (M ^ 2) (m1 ^ 2) (m2 ^ 2) (m3 ^ 2)).getMAB x = pairMass M m1 m2 m3 x.1 := by
  unfold Integrator.getMAB pairMass; rw [make_min h, make_max h]

theorem getMABAt_eq (h : Masses M m1 m2 m3) (x : ℝ × ℝ) :
    (make (M ^ 2) (m1 ^ 2) (m2 ^ 2) (m3 ^ 2)).getMABAt x (M ^ 2) = pairMass M m1 m2 m3 x.1 := by
  unfold Integrator.getMABAt pairMass
  simp only [make, Integrator.setMother]
  rw [Real.sqrt_sq h.pos.le, Real.sqrt_sq h.nonneg1, Real.sqrt_sq h.nonneg2, Real.sqrt_sq h.nonneg3]

theorem pairMass_mem (h : Masses M m1 m2 m3) (x : ℝ) : m1 + m2 ≤ pairMass M m1 m2 m3 x ∧ pairMass M m1 m2 m3 x ≤ M - m3 := by
  have h1 := Real.neg_one_le_cos (Real.pi * x)
  have h2 := Real.cos_le_one (Real.pi * x)
  have h3 := h.range
  unfold pairMass
  constructor <;> nlinarith

theorem pairMass_strict (h : Masses M m1 m2 m3) {x : ℝ} (h0 : 0 < x) (h1 : x < 1) :
    m1 + m2 < pairMass M m1 m2 m3 x ∧ pairMass M m1 m2 m3 x < M - m3 := by
  have hp := Real.pi_pos
  have e1 : Real.cos (Real.pi * x) < 1 := by
    have := Real.strictAntiOn_cos (Set.left_mem_Icc.2 hp.le) ⟨by positivity, by nlinarith⟩ (show 0 < Real.pi * x by positivity)
    rwa [Real.cos_zero] at this
  have e2 : -1 < Real.cos (Real.pi * x) := by
    have := Real.strictAntiOn_cos ⟨by positivity, by nlinarith⟩ (Set.right_mem_Icc.2 hp.le) (show Real.pi * x < Real.pi by nlinarith)
    rwa [Real.cos_pi] at this
  have h3 := h.range
  unfold pairMass
  constructor <;> nlinarith

section
variable {m : ℝ}

theorem eA_nonneg (h : Masses M m1 m2 m3) (hm : m1 + m2 ≤ m) : 0 ≤ (m ^ 2 + m1 ^ 2 - m2 ^ 2) / (2 * m) := by
  have hp := h.pair
  have := h.nonneg1
  have := h.nonneg2
  refine div_nonneg ?_ (by linarith)
  nlinarith

theorem eB_nonneg (h : Masses M m1 m2 m3) (hm : m1 + m2 ≤ m) : 0 ≤ (m ^ 2 + m2 ^ 2 - m1 ^ 2) / (2 * m) := by
  have hp := h.pair
  have := h.nonneg1
  have := h.nonneg2
  refine div_nonneg ?_ (by linarith)
  nlinarith

theorem eC_nonneg (h : Masses M m1 m2 m3) (hm : m1 + m2 ≤ m) (hm' : m ≤ M - m3) : 0 ≤ (M ^ 2 - m3 ^ 2 - m ^ 2) / (2 * m) := by
  have hp := h.pair
  have := h.nonneg3
  have := h.pos
  refine div_nonneg ?_ (by linarith)
  nlinarith

theorem argA_eq (hm : 0 < m) (s0 s3 : ℝ) : (make s0 (m1 ^ 2) (m2 ^ 2) s3).argA m = ((m ^ 2 + m1 ^ 2 - m2 ^ 2) / (2 * m)) ^ 2 - m1 ^ 2 := by
  simp only [make, Integrator.setMother, Integrator.argA]
  field_simp
  ring

theorem kA_factor (hm : 0 < m) : ((m ^ 2 + m1 ^ 2 - m2 ^ 2) / (2 * m)) ^ 2 - m1 ^ 2 = (m ^ 2 - (m1 + m2) ^ 2) * (m ^ 2 - (m1 - m2) ^ 2) / (4 * m ^ 2) := by
  field_simp
  ring

theorem kA_nonneg (h : Masses M m1 m2 m3) (hm : m1 + m2 ≤ m) : 0 ≤ ((m ^ 2 + m1 ^ 2 - m2 ^ 2) / (2 * m)) ^ 2 - m1 ^ 2 := by
  have hp := h.pair
  have h1 := h.nonneg1
  have h2 := h.nonneg2
  rw [kA_factor (by linarith)]
  refine div_nonneg (mul_nonneg ?_ ?_) (by positivity) <;> nlinarith

theorem kA_pos (h : Masses M m1 m2 m3) (hm : m1 + m2 < m) : 0 < ((m ^ 2 + m1 ^ 2 - m2 ^ 2) / (2 * m)) ^ 2 - m1 ^ 2 := by
  have hp := h.pair
  have h1 := h.nonneg1
  have h2 := h.nonneg2
  have hm0 : 0 < m := by linarith
  rw [kA_factor hm0]
  refine div_pos (mul_pos ?_ ?_) (by positivity) <;> nlinarith

theorem kC_factor (hm : 0 < m) : ((M ^ 2 - m3 ^ 2 - m ^ 2) / (2 * m)) ^ 2 - m3 ^ 2 = ((M - m3) ^ 2 - m ^ 2) * ((M + m3) ^ 2 - m ^ 2) / (4 * m ^ 2) := by
  field_simp
  ring

theorem kC_nonneg (h : Masses M m1 m2 m3) (hm : m1 + m2 ≤ m) (hm' : m ≤ M - m3) : 0 ≤ ((M ^ 2 - m3 ^ 2 - m ^ 2) / (2 * m)) ^ 2 - m3 ^ 2 := by
  have hp := h.pair
  have h3 := h.nonneg3
  have h0 := h.pos
  rw [kC_factor (by linarith)]
  refine div_nonneg (mul_nonneg ?_ ?_) (by positivity) <;> nlinarith

theorem kC_pos (h : Masses M m1 m2 m3) (hm : m1 + m2 ≤ m) (hm' : m < M - m3) : 0 < ((M ^ 2 - m3 ^ 2 - m ^ 2) / (2 * m)) ^ 2 - m3 ^ 2 := by
  have hp := h.pair
  have h3 := h.nonneg3
  have h0 := h.pos
  have hm0 : 0 < m := by linarith
  rw [kC_factor hm0]
  refine div_pos (mul_pos ?_ ?_) (by positivity) <;> nlinarith

theorem eC_eq : (make (M ^ 2) (m1 ^ 2) (m2 ^ 2) (m3 ^ 2)).eC m = (M ^ 2 - m3 ^ 2 - m ^ 2) / (2 * m) := by
  simp only [make, Integrator.setMother, Integrator.eC, sq]

/-- Momenta and energies in the rest frame of the pair. -/
noncomputable def kA (m1 m2 m : ℝ) : ℝ := √(((m ^ 2 + m1 ^ 2 - m2 ^ 2) / (2 * m)) ^ 2 - m1 ^ 2)
noncomputable def kC (M m3 m : ℝ) : ℝ := √(((M ^ 2 - m3 ^ 2 - m ^ 2) / (2 * m)) ^ 2 - m3 ^ 2)
noncomputable def enA (m1 m2 m : ℝ) : ℝ := (m ^ 2 + m1 ^ 2 - m2 ^ 2) / (2 * m)
noncomputable def enC (M m3 m : ℝ) : ℝ := (M ^ 2 - m3 ^ 2 - m ^ 2) / (2 * m)

theorem kA_sq (h : Masses M m1 m2 m3) (hm : m1 + m2 ≤ m) : kA m1 m2 m ^ 2 = enA m1 m2 m ^ 2 - m1 ^ 2 := Real.sq_sqrt (kA_nonneg h hm)
theorem kC_sq (h : Masses M m1 m2 m3) (hm : m1 + m2 ≤ m) (hm' : m ≤ M - m3) : kC M m3 m ^ 2 = enC M m3 m ^ 2 - m3 ^ 2 := Real.sq_sqrt (kC_nonneg h hm hm')

theorem sqrtA (h : Masses M m1 m2 m3) (hm : m1 + m2 ≤ m) : √(kA m1 m2 m * kA m1 m2 m + m1 ^ 2) = enA m1 m2 m := by
  rw [← sq, kA_sq h hm, sub_add_cancel]
  exact Real.sqrt_sq (eA_nonneg h hm)

theorem en_sum (hm : 0 < m) : enA m1 m2 m + enA m2 m1 m = m := by
  unfold enA; field_simp; ring

theorem kA_symm (hm : 0 < m) : enA m2 m1 m ^ 2 - m2 ^ 2 = enA m1 m2 m ^ 2 - m1 ^ 2 := by
  unfold enA; field_simp; ring

theorem sqrtB (h : Masses M m1 m2 m3) (hm : m1 + m2 ≤ m) : √(kA m1 m2 m * kA m1 m2 m + m2 ^ 2) = enA m2 m1 m := by
  have hp := h.pair
  rw [← sq, kA_sq h hm, ← kA_symm (by linarith : (0 : ℝ) < m), sub_add_cancel]
  exact Real.sqrt_sq (eB_nonneg h hm)

/-- The event at a mass and an angle. -/
noncomputable def sample (M m1 m2 m3 m y : ℝ) : Momenta := write (fun _ => 0) (kA m1 m2 m) (enA m1 m2 m) (enA m2 m1 m) (kC M m3 m) (enC M m3 m) y

end

theorem setEvent_eq (h : Masses M m1 m2 m3) (x : ℝ × ℝ) :
    (make (M ^ 2) (m1 ^ 2) (m2 ^ 2) (m3 ^ 2)).setEvent x (fun _ => 0) = sample M m1 m2 m3 (pairMass M m1 m2 m3 x.1) x.2 := by
  have hm := pairMass_mem h x.1
  have hp := h.pair
  unfold Integrator.setEvent sample
  simp only [getMAB_eq h, eC_eq, safeSqrt_eq]
  generalize pairMass M m1 m2 m3 x.1 = m at *
  rw [argA_eq (by linarith : (0 : ℝ) < m)]
  have e1 := sqrtA h hm.1
  have e2 := sqrtB h hm.1
  unfold kA at e1 e2
  simp only [make, Integrator.setMother]
  rw [e1, e2, ← sq ((M ^ 2 - m3 ^ 2 - m ^ 2) / (2 * m))]
  rfl

theorem setEventAt_eq (h : Masses M m1 m2 m3) (x : ℝ × ℝ) :
    (make (M ^ 2) (m1 ^ 2) (m2 ^ 2) (m3 ^ 2)).setEventAt x (fun _ => 0) (M ^ 2) = some (sample M m1 m2 m3 (pairMass M m1 m2 m3 x.1) x.2) := by
  have hm := pairMass_mem h x.1
  have hp := h.pair
  unfold Integrator.setEventAt sample
  simp only [getMABAt_eq h, eC_eq]
  generalize pairMass M m1 m2 m3 x.1 = m at *
  rw [argA_eq (by linarith : (0 : ℝ) < m), rootOf_eq (kA_nonneg h hm.1)]
  have e1 := sqrtA h hm.1
  have e2 := sqrtB h hm.1
  unfold kA at e1 e2
  simp only [make, Integrator.setMother, Option.bind_eq_bind, Option.bind_some]
  rw [rootOf_eq (by positivity), rootOf_eq (by positivity), ← sq ((M ^ 2 - m3 ^ 2 - m ^ 2) / (2 * m)), rootOf_eq (kC_nonneg h hm.1 hm.2)]
  simp only [Option.bind_some, e1, e2]
  rfl

theorem at4_sample (M m1 m2 m3 m y : ℝ) :
    at4 (sample M m1 m2 m3 m y) 0 = ⟨0, 0, kA m1 m2 m, enA m1 m2 m⟩ ∧
    at4 (sample M m1 m2 m3 m y) 1 = ⟨0, 0, -kA m1 m2 m, enA m2 m1 m⟩ ∧
    at4 (sample M m1 m2 m3 m y) 2 = ⟨0, kC M m3 m * Real.sin (Real.pi * y), kC M m3 m * Real.cos (Real.pi * y), enC M m3 m⟩ := by
  simp [at4, sample, write]

theorem massSq12 (M m1 m2 m3 : ℝ) {m : ℝ} (hm : 0 < m) (y : ℝ) : massSq [at4 (sample M m1 m2 m3 m y) 0, at4 (sample M m1 m2 m3 m y) 1] = m ^ 2 := by
  obtain ⟨h0, h1, _⟩ := at4_sample M m1 m2 m3 m y
  rw [h0, h1]
  simp [massSq, en_sum hm]

theorem massSq13 (h : Masses M m1 m2 m3) {m : ℝ} (hm : m1 + m2 ≤ m) (hm' : m ≤ M - m3) (y : ℝ) :
    massSq [at4 (sample M m1 m2 m3 m y) 0, at4 (sample M m1 m2 m3 m y) 2] =
      m1 ^ 2 + m3 ^ 2 + 2 * (enA m1 m2 m * enC M m3 m - kA m1 m2 m * kC M m3 m * Real.cos (Real.pi * y)) := by
  obtain ⟨h0, _, h2⟩ := at4_sample M m1 m2 m3 m y
  rw [h0, h2]
  have e1 := kA_sq h hm
  have e3 := kC_sq h hm hm'
  have e := Real.sin_sq_add_cos_sq (Real.pi * y)
  simp [massSq]
  linear_combination (-1) * e1 - e3 - kC M m3 m ^ 2 * e

theorem sample_physical (h : Masses M m1 m2 m3) {m : ℝ} (hm : m1 + m2 ≤ m) (hm' : m ≤ M - m3) (y : ℝ) :
    Physical M m1 m2 m3 (at4 (sample M m1 m2 m3 m y) 0) (at4 (sample M m1 m2 m3 m y) 1) (at4 (sample M m1 m2 m3 m y) 2) := by
  obtain ⟨h0, h1, h2⟩ := at4_sample M m1 m2 m3 m y
  rw [h0, h1, h2]
  have hp := h.pair
  have hm0 : 0 < m := by linarith
  have e1 := kA_sq h hm
  have e2 := kA_symm (m1 := m1) (m2 := m2) hm0
  have e3 := kC_sq h hm hm'
  have e := Real.sin_sq_add_cos_sq (Real.pi * y)
  refine ⟨⟨?_, eA_nonneg h hm⟩, ⟨?_, eB_nonneg h hm⟩, ⟨?_, eC_nonneg h hm hm'⟩, ?_⟩
  · simp only []; linear_combination (-1) * e1
  · simp only []; linear_combination (-1) * e1 + e2
  · simp only []; linear_combination (-1) * e3 - kC M m3 m ^ 2 * e
  · have es := en_sum (m1 := m1) (m2 := m2) hm0
    have ec : 2 * m * enC M m3 m = M ^ 2 - m3 ^ 2 - m ^ 2 := by unfold enC; field_simp
    simp [massSq]
    have : (enA m1 m2 m + (enA m2 m1 m + enC M m3 m)) = m + enC M m3 m := by linarith
    rw [this]
    linear_combination ec - e3 - kC M m3 m ^ 2 * e

/-! ### Coordinates of physical events -/

theorem Dot_massSq (p q : P4) : (plus p q).Dot (plus p q) = massSq [p, q] := by
  simp [massSq, P4.Dot, plus]; ring

theorem OnShell.dot {m : ℝ} {p : P4} (h : OnShell m p) : p.Dot p = m ^ 2 := by
  have := h.1; simp only [P4.Dot]; linarith

/-- Two momenta of particles have a product of at least that of their masses. -/
theorem dot_ge {m n : ℝ} (hm : 0 ≤ m) (hn : 0 ≤ n) {p q : P4} (hp : OnShell m p) (hq : OnShell n q) : m * n ≤ p.Dot q := by
  obtain ⟨hp1, hp2⟩ := hp
  obtain ⟨hq1, hq2⟩ := hq
  have hc : (p.x * q.x + p.y * q.y + p.z * q.z) ^ 2 ≤ (p.x ^ 2 + p.y ^ 2 + p.z ^ 2) * (q.x ^ 2 + q.y ^ 2 + q.z ^ 2) := by
    nlinarith [sq_nonneg (p.x * q.y - p.y * q.x), sq_nonneg (p.x * q.z - p.z * q.x), sq_nonneg (p.y * q.z - p.z * q.y)]
  have hP : 0 ≤ p.x ^ 2 + p.y ^ 2 + p.z ^ 2 := by positivity
  have hQ : 0 ≤ q.x ^ 2 + q.y ^ 2 + q.z ^ 2 := by positivity
  have hd : p.Dot q = p.E * q.E - (p.x * q.x + p.y * q.y + p.z * q.z) := by simp only [P4.Dot]; ring
  rw [hd]
  generalize p.x * q.x + p.y * q.y + p.z * q.z = w at *
  generalize p.x ^ 2 + p.y ^ 2 + p.z ^ 2 = P at *
  generalize q.x ^ 2 + q.y ^ 2 + q.z ^ 2 = Q at *
  have h1 : w ≤ √(P * Q) := Real.le_sqrt_of_sq_le hc
  have h2 := Real.sq_sqrt (mul_nonneg hP hQ)
  have h3 := Real.sqrt_nonneg (P * Q)
  generalize √(P * Q) = r at *
  have h4 : (m * n + r) ^ 2 ≤ (p.E * q.E) ^ 2 := by
    rw [mul_pow, hp1, hq1]
    have : 2 * (m * n) * r ≤ P * n ^ 2 + m ^ 2 * Q := by
      have h5 : (2 * (m * n) * r) ^ 2 ≤ (P * n ^ 2 + m ^ 2 * Q) ^ 2 := by
        have : (2 * (m * n) * r) ^ 2 = 4 * (m * n) ^ 2 * (P * Q) := by rw [← h2]; ring
        rw [this]; nlinarith [sq_nonneg (P * n ^ 2 - m ^ 2 * Q)]
      exact le_of_sq_le_sq h5 (by positivity)
    nlinarith
  have h5 := abs_le_of_sq_le_sq h4 (mul_nonneg hp2 hq2)
  linarith [(abs_le.1 h5).2]

/-- Momenta orthogonal to that of a massive particle are spacelike. -/
theorem orthogonal_spacelike {q P : P4} (hP : 0 < P.Dot P) (h : q.Dot P = 0) : q.Dot q ≤ 0 := by
  simp only [P4.Dot] at *
  have hc : (q.x * P.x + q.y * P.y + q.z * P.z) ^ 2 ≤ (q.x ^ 2 + q.y ^ 2 + q.z ^ 2) * (P.x ^ 2 + P.y ^ 2 + P.z ^ 2) := by
    nlinarith [sq_nonneg (q.x * P.y - q.y * P.x), sq_nonneg (q.x * P.z - q.z * P.x), sq_nonneg (q.y * P.z - q.z * P.y)]
  have e : q.x * P.x + q.y * P.y + q.z * P.z = q.E * P.E := by linarith
  rw [e] at hc
  by_contra hlt
  push Not at hlt
  have hE : 0 < P.E ^ 2 := by nlinarith [sq_nonneg P.x, sq_nonneg P.y, sq_nonneg P.z]
  have hq : 0 ≤ q.x ^ 2 + q.y ^ 2 + q.z ^ 2 := by positivity
  have hpp : P.x ^ 2 + P.y ^ 2 + P.z ^ 2 < P.E ^ 2 := by nlinarith
  nlinarith [mul_le_mul_of_nonneg_left hpp.le hq]

/-- The inequality of Cauchy and Schwarz in the rest frame of a massive particle. -/
theorem dotProduct_le {p q P : P4} (hP : 0 < P.Dot P) : dotProduct p q P ^ 2 ≤ dotProduct p p P * dotProduct q q P := by
  have hP' := hP.ne'
  have key : ∀ t : ℝ, 0 ≤ dotProduct q q P * (t * t) + 2 * dotProduct p q P * t + dotProduct p p P := by
    intro t
    obtain ⟨c, hc⟩ : ∃ c, c = (p.Dot P + t * q.Dot P) / P.Dot P := ⟨_, rfl⟩
    have hc' : c * P.Dot P = p.Dot P + t * q.Dot P := by rw [hc]; field_simp
    obtain ⟨r, hr⟩ : ∃ r : P4, r = ⟨p.x + t * q.x - c * P.x, p.y + t * q.y - c * P.y, p.z + t * q.z - c * P.z, p.E + t * q.E - c * P.E⟩ := ⟨_, rfl⟩
    have h1 : r.Dot P = 0 := by
      have : r.Dot P = p.Dot P + t * q.Dot P - c * P.Dot P := by rw [hr]; simp only [P4.Dot]; ring
      rw [this, hc']; ring
    have h2 := orthogonal_spacelike hP h1
    have h3 : r.Dot r = -(dotProduct q q P * (t * t) + 2 * dotProduct p q P * t + dotProduct p p P) := by
      have e : r.Dot r = p.Dot p + 2 * t * p.Dot q + t * t * q.Dot q - 2 * c * (p.Dot P + t * q.Dot P) + c * (c * P.Dot P) := by
        rw [hr]; simp only [P4.Dot]; ring
      rw [e, hc', hc]
      unfold dotProduct
      field_simp
      ring
    linarith
  have := discrim_le_zero key
  simp only [discrim] at this
  nlinarith

theorem OnShell.ofDot {m : ℝ} {p : P4} (h : p.Dot p = m ^ 2) (hE : 0 ≤ p.E) : OnShell m p := by
  refine ⟨?_, hE⟩
  simp only [P4.Dot] at h
  linarith

/-- The mass of the pair in a physical event is in its range. -/
theorem physical_range (h : Masses M m1 m2 m3) {p1 p2 p3 : P4} (hp : Physical M m1 m2 m3 p1 p2 p3) :
    m1 + m2 ≤ √(massSq [p1, p2]) ∧ √(massSq [p1, p2]) ≤ M - m3 := by
  have hd := dot_ge h.nonneg1 h.nonneg2 hp.shell1 hp.shell2
  have e : massSq [p1, p2] = m1 ^ 2 + m2 ^ 2 + 2 * p1.Dot p2 := by
    rw [← hp.shell1.dot, ← hp.shell2.dot]; simp [massSq, P4.Dot]; ring
  have hge : (m1 + m2) ^ 2 ≤ massSq [p1, p2] := by rw [e]; nlinarith
  have hnn : 0 ≤ massSq [p1, p2] := (sq_nonneg _).trans hge
  have hs := Real.sq_sqrt hnn
  refine ⟨Real.le_sqrt_of_sq_le hge, ?_⟩
  have h12 : OnShell (√(massSq [p1, p2])) (plus p1 p2) := by
    refine OnShell.ofDot (by rw [Dot_massSq, hs]) ?_
    simp only [plus]; linarith [hp.shell1.2, hp.shell2.2]
  have hd' := dot_ge (Real.sqrt_nonneg _) h.nonneg3 h12 hp.shell3
  have e' : M ^ 2 = massSq [p1, p2] + m3 ^ 2 + 2 * (plus p1 p2).Dot p3 := by
    rw [← hp.total, ← hp.shell3.dot]; simp [massSq, P4.Dot, plus]; ring
  have hM := h.pos
  have h3 := h.nonneg3
  have hr := Real.sqrt_nonneg (massSq [p1, p2])
  have : (√(massSq [p1, p2]) + m3) ^ 2 ≤ M ^ 2 := by rw [add_sq, hs]; linarith
  have := abs_le_of_sq_le_sq this hM.le
  linarith [(abs_le.1 this).2]

theorem dotProduct_values {p1 p2 p3 : P4} (hp : Physical M m1 m2 m3 p1 p2 p3) {m : ℝ} (hm : 0 < m) (h12 : massSq [p1, p2] = m ^ 2) :
    dotProduct p1 p1 (plus p1 p2) = enA m1 m2 m ^ 2 - m1 ^ 2 ∧ dotProduct p3 p3 (plus p1 p2) = enC M m3 m ^ 2 - m3 ^ 2 ∧
    massSq [p1, p3] = m1 ^ 2 + m3 ^ 2 + 2 * (enA m1 m2 m * enC M m3 m - dotProduct p1 p3 (plus p1 p2)) := by
  have d1 := hp.shell1.dot
  have d2 := hp.shell2.dot
  have d3 := hp.shell3.dot
  have e12 : massSq [p1, p2] = p1.Dot p1 + p2.Dot p2 + 2 * p1.Dot p2 := by simp [massSq, P4.Dot]; ring
  have e1 : p1.Dot (plus p1 p2) = p1.Dot p1 + p1.Dot p2 := by simp only [P4.Dot, plus]; ring
  have e3 : massSq [p1, p2, p3] = massSq [p1, p2] + p3.Dot p3 + 2 * p3.Dot (plus p1 p2) := by simp [massSq, P4.Dot, plus]; ring
  have e13 : massSq [p1, p3] = p1.Dot p1 + p3.Dot p3 + 2 * p1.Dot p3 := by simp [massSq, P4.Dot]; ring
  have hP : (plus p1 p2).Dot (plus p1 p2) = m ^ 2 := by rw [Dot_massSq, h12]
  have f1 : p1.Dot (plus p1 p2) = m * enA m1 m2 m := by
    rw [e1]; unfold enA; field_simp; linarith
  have f3 : p3.Dot (plus p1 p2) = m * enC M m3 m := by
    have := hp.total
    unfold enC; field_simp; linarith
  unfold dotProduct
  rw [hP, f1, f3, d1, d3, e13, d1, d3]
  refine ⟨?_, ?_, ?_⟩ <;> field_simp <;> ring

end AmpGen.Dalitz
