import Verif.Kinematics.Lemmas2
import Mathlib.LinearAlgebra.Matrix.NonsingularInverse
import Mathlib.Algebra.BigOperators.Fin
/-
Boosts, rotations, helicity angles and permutations of particles.
-/
namespace AmpGen.Kinematics

/-! ### C42: boosts and rotations -/

/-- The sum of momenta after a boost. -/
theorem total_boost (e : Event) (nx ny nz v : ℝ) (l : List Nat) (hl : ∀ i ∈ l, i < particles e) :
    total (boost e nx ny nz v) l = boostP nx ny nz v (total e l) := by
  refine total_map ?_ ?_ fun i hi => by rw [momentum_boost, if_pos (hl i hi)]
  · rw [boostP_eq, boostU_zero]
  · intro p q; rw [boostP_eq, boostP_eq, boostP_eq, boostU_add]

theorem total_rotate (e : Event) (nx ny nz v : ℝ) (l : List Nat) (hl : ∀ i ∈ l, i < particles e) :
    total (rotate e nx ny nz v) l = rotateP nx ny nz v (total e l) := by
  refine total_map ?_ ?_ fun i hi => by rw [momentum_rotate, if_pos (hl i hi)]
  · rw [rotateP_eq, rotateU_zero]
  · intro p q; rw [rotateP_eq, rotateP_eq, rotateP_eq, rotateU_add]

theorem boostP_dot {nx ny nz v : ℝ} (hn : ¬(nx = 0 ∧ ny = 0 ∧ nz = 0)) (hv : |v| < 1) (p q : P4) : (boostP nx ny nz v p).Dot (boostP nx ny nz v q) = p.Dot q := by
  rw [boostP_eq, boostP_eq]
  exact boostU_dot (unit_normed hn rfl) (gamma_sq (by rw [← abs_mul_abs_self]; nlinarith [abs_nonneg v])) p q

theorem rotateP_dot {nx ny nz : ℝ} (hn : ¬(nx = 0 ∧ ny = 0 ∧ nz = 0)) (v : ℝ) (p q : P4) : (rotateP nx ny nz v p).Dot (rotateP nx ny nz v q) = p.Dot q := by
  rw [rotateP_eq, rotateP_eq]
  refine rotateU_dot (unit_normed hn rfl) ?_ p q
  have := Real.cos_sq_add_sin_sq v
  rw [← sq, ← sq]; exact this

/-- C42.  A boost along any axis with a velocity below one leaves the invariant mass of every selection of particles unchanged. -/
theorem boost_masses (e : Event) (nx ny nz v : ℝ) (hn : ¬(nx = 0 ∧ ny = 0 ∧ nz = 0)) (hv : |v| < 1) (l : List Nat) (hl : ∀ i ∈ l, i < particles e) :
    (boost e nx ny nz v).s l = e.s l := by
  rw [s_eq, s_eq, total_boost e nx ny nz v l hl, boostP_dot hn hv]

example : ¬((1 : ℝ) = 0 ∧ (2 : ℝ) = 0 ∧ (0 : ℝ) = 0) ∧ |(3 / 5 : ℝ)| < 1 ∧ ∀ i ∈ [0, 2], i < particles ⟨13, fun i => i⟩ := by
  refine ⟨by norm_num, by rw [abs_of_pos] <;> norm_num, ?_⟩
  decide

/-- C42.  Two boosts along the same axis are one boost, with the velocities added as in the theory of relativity. -/
theorem boost_velocities (e : Event) (nx ny nz v w : ℝ) (hn : ¬(nx = 0 ∧ ny = 0 ∧ nz = 0)) (hv : |v| < 1) (hw : |w| < 1) :
    boost (boost e nx ny nz v) nx ny nz w = boost e nx ny nz ((v + w) / (1 + v * w)) := by
  refine event_ext (by simp only [boost_size]) fun i => ?_
  rw [momentum_boost, momentum_boost, momentum_boost]
  have hp : particles (boost e nx ny nz v) = particles e := by unfold particles; rw [boost_size]
  rw [hp]
  by_cases hi : i < particles e
  · rw [if_pos hi, if_pos hi, if_pos hi, boostP_eq, boostP_eq, boostP_eq]
    have hv1 : 0 < 1 - v * v := by rw [← abs_mul_abs_self]; nlinarith [abs_nonneg v]
    have hw1 : 0 < 1 - w * w := by rw [← abs_mul_abs_self w]; nlinarith [abs_nonneg w]
    have hvw : 0 < 1 + v * w := by
      have h1 := neg_abs_le (v * w)
      rw [abs_mul] at h1
      nlinarith [abs_nonneg v, abs_nonneg w]
    have hs : √(1 - (v + w) / (1 + v * w) * ((v + w) / (1 + v * w))) = √(1 - v * v) * √(1 - w * w) / (1 + v * w) := by
      rw [← Real.sqrt_mul hv1.le, ← Real.sqrt_sq hvw.le, ← Real.sqrt_div (mul_pos hv1 hw1).le, Real.sqrt_sq hvw.le]
      congr 1
      field_simp
      ring
    have ha : √(1 - v * v) ≠ 0 := (Real.sqrt_pos.mpr hv1).ne'
    have hb : √(1 - w * w) ≠ 0 := (Real.sqrt_pos.mpr hw1).ne'
    rw [hs]
    generalize √(1 - v * v) = a at ha ⊢
    generalize √(1 - w * w) = b at hb ⊢
    refine boostU_comp (unit_normed hn rfl) ?_ ?_ _
    · field_simp
    · field_simp
  · rw [if_neg hi, if_neg hi, if_neg hi]

/-- C42.  Boosting back restores the event. -/
theorem boost_back (e : Event) (nx ny nz v : ℝ) (hn : ¬(nx = 0 ∧ ny = 0 ∧ nz = 0)) (hv : |v| < 1) :
    boost (boost e nx ny nz v) nx ny nz (-v) = e := by
  rw [boost_velocities e nx ny nz v (-v) hn hv (by rwa [abs_neg]), add_neg_cancel, zero_div]
  refine event_ext (boost_size _ _ _ _ _) fun i => ?_
  rw [momentum_boost]
  by_cases hi : i < particles e
  · rw [if_pos hi]
    simp [boostP]
  · rw [if_neg hi]

/-- C42.  A particle at rest moves with the velocity of the boost, along its axis. -/
theorem boost_at_rest (e : Event) (nx ny nz v m : ℝ) (hn : ¬(nx = 0 ∧ ny = 0 ∧ nz = 0)) (hv : |v| < 1) (i : Nat) (hi : i < particles e)
    (hm : momentum e i = ⟨0, 0, 0, m⟩) :
    (momentum (boost e nx ny nz v) i).E = m / √(1 - v ^ 2) ∧
    (momentum (boost e nx ny nz v) i).x * √(nx ^ 2 + ny ^ 2 + nz ^ 2) = v * (momentum (boost e nx ny nz v) i).E * nx ∧
    (momentum (boost e nx ny nz v) i).y * √(nx ^ 2 + ny ^ 2 + nz ^ 2) = v * (momentum (boost e nx ny nz v) i).E * ny ∧
    (momentum (boost e nx ny nz v) i).z * √(nx ^ 2 + ny ^ 2 + nz ^ 2) = v * (momentum (boost e nx ny nz v) i).E * nz := by
  rw [momentum_boost, if_pos hi, hm, boostP_eq]
  have hr := (norm_pos hn).ne'
  rw [show nx ^ 2 + ny ^ 2 + nz ^ 2 = nx * nx + ny * ny + nz * nz by ring, show v ^ 2 = v * v by ring]
  generalize √(nx * nx + ny * ny + nz * nz) = r at hr ⊢
  generalize √(1 - v * v) = g
  refine ⟨?_, ?_, ?_, ?_⟩ <;> simp only [boostU] <;> field_simp <;> ring

/-- C42.  A rotation leaves the invariant mass of every selection of particles unchanged, and all energies. -/
theorem rotate_masses (e : Event) (nx ny nz v : ℝ) (hn : ¬(nx = 0 ∧ ny = 0 ∧ nz = 0)) (l : List Nat) (hl : ∀ i ∈ l, i < particles e) :
    (rotate e nx ny nz v).s l = e.s l ∧ ∀ i, (momentum (rotate e nx ny nz v) i).E = (momentum e i).E := by
  refine ⟨by rw [s_eq, s_eq, total_rotate e nx ny nz v l hl, rotateP_dot hn], fun i => ?_⟩
  rw [momentum_rotate]
  split <;> rfl

/-- C42.  Two rotations around the same axis are one rotation by the sum of the angles. -/
theorem rotate_angles (e : Event) (nx ny nz v w : ℝ) (hn : ¬(nx = 0 ∧ ny = 0 ∧ nz = 0)) :
    rotate (rotate e nx ny nz v) nx ny nz w = rotate e nx ny nz (v + w) := by
  refine event_ext (by simp only [rotate_size]) fun i => ?_
  rw [momentum_rotate, momentum_rotate, momentum_rotate]
  have hp : particles (rotate e nx ny nz v) = particles e := by unfold particles; rw [rotate_size]
  rw [hp]
  by_cases hi : i < particles e
  · rw [if_pos hi, if_pos hi, if_pos hi, rotateP_eq, rotateP_eq, rotateP_eq, rotateU_comp (unit_normed hn rfl), add_comm v w, Real.cos_add, Real.sin_add]
  · rw [if_neg hi, if_neg hi, if_neg hi]

/-- C42.  Rotating back restores the event. -/
theorem rotate_back (e : Event) (nx ny nz v : ℝ) (hn : ¬(nx = 0 ∧ ny = 0 ∧ nz = 0)) : rotate (rotate e nx ny nz v) nx ny nz (-v) = e := by
  rw [rotate_angles e nx ny nz v (-v) hn, add_neg_cancel]
  refine event_ext (rotate_size _ _ _ _ _) fun i => ?_
  rw [momentum_rotate]
  by_cases hi : i < particles e
  · rw [if_pos hi]
    simp [rotateP]
  · rw [if_neg hi]

/-- C42.  A rotation by `v` keeps the component along the axis `n`, and turns a momentum orthogonal to the axis by the angle `v` in the positive sense: its
scalar product with the original is `cos v` times the square, its vector product is `sin v` times the square along the axis. -/
theorem rotate_action (e : Event) (n : V3) (v : ℝ) (hn : ¬(n.x = 0 ∧ n.y = 0 ∧ n.z = 0)) (i : Nat) (hi : i < particles e) :
    n.dot (momentum (rotate e n.x n.y n.z v) i).vect = n.dot (momentum e i).vect ∧
    (n.dot (momentum e i).vect = 0 →
      (momentum e i).vect.dot (momentum (rotate e n.x n.y n.z v) i).vect = Real.cos v * (momentum e i).vect.dot (momentum e i).vect ∧
      n.dot ((momentum e i).vect.cross (momentum (rotate e n.x n.y n.z v) i).vect) = Real.sin v * √(n.dot n) * (momentum e i).vect.dot (momentum e i).vect) := by
  rw [momentum_rotate, if_pos hi, rotateP_eq]
  generalize momentum e i = p
  have hu := unit_normed hn rfl
  have hr := (norm_pos hn).ne'
  show n.dot (P4.vect (rotateU _ _ _ _ _ p)) = _ ∧ _
  have hdot : √(n.dot n) = √(n.x * n.x + n.y * n.y + n.z * n.z) := rfl
  rw [hdot]
  obtain ⟨r, hr'⟩ : ∃ r, √(n.x * n.x + n.y * n.y + n.z * n.z) = r := ⟨_, rfl⟩
  rw [hr'] at hu hr ⊢
  obtain ⟨ux, hux⟩ : ∃ u, n.x / r = u := ⟨_, rfl⟩
  obtain ⟨uy, huy⟩ : ∃ u, n.y / r = u := ⟨_, rfl⟩
  obtain ⟨uz, huz⟩ : ∃ u, n.z / r = u := ⟨_, rfl⟩
  rw [hux, huy, huz] at hu ⊢
  have ex : n.x = r * ux := by rw [← hux]; field_simp
  have ey : n.y = r * uy := by rw [← huy]; field_simp
  have ez : n.z = r * uz := by rw [← huz]; field_simp
  simp only [V3.dot, V3.cross, P4.vect, rotateU, ex, ey, ez]
  refine ⟨?_, fun h => ?_⟩
  · linear_combination r * (p.x * ux + p.y * uy + p.z * uz) * (1 - Real.cos v) * hu
  · have h' : ux * p.x + uy * p.y + uz * p.z = 0 := by
      have : r * (ux * p.x + uy * p.y + uz * p.z) = 0 := by linear_combination h
      exact (mul_eq_zero.mp this).resolve_left hr
    have h'' : p.x * ux + p.y * uy + p.z * uz = 0 := by linear_combination h'
    rw [h'']
    constructor
    · ring
    · linear_combination (r * Real.sin v * (p.x * p.x + p.y * p.y + p.z * p.z)) * hu - (r * Real.sin v * (ux * p.x + uy * p.y + uz * p.z)) * h'

/-- C42.  Expressing an event in a basis of orthogonal vectors leaves the invariant mass of every selection of particles unchanged. -/
theorem basis_masses (e : Event) (p1 p2 p3 : V3) (h1 : p1.dot p1 ≠ 0) (h2 : p2.dot p2 ≠ 0) (h3 : p3.dot p3 ≠ 0)
    (h12 : p1.dot p2 = 0) (h13 : p1.dot p3 = 0) (h23 : p2.dot p3 = 0) (l : List Nat) (hl : ∀ i ∈ l, i < particles e) :
    (rotateBasis e p1 p2 p3).s l = e.s l := by
  have ht : total (rotateBasis e p1 p2 p3) l = basisP p1 p2 p3 (total e l) := by
    refine total_map ?_ ?_ fun i hi => by rw [momentum_basis, if_pos (hl i hi)]
    · simp [basisP]
    · intro p q
      simp only [basisP, P4.add]
      ext <;> simp only [] <;> ring
  rw [s_eq, s_eq, ht]
  generalize total e l = p
  have hm : ∀ q : V3, q.dot q ≠ 0 → q.Mag * q.Mag = q.dot q ∧ q.Mag ≠ 0 := by
    intro q hq
    have h0 : 0 ≤ q.dot q := by unfold V3.dot; nlinarith [mul_self_nonneg q.x, mul_self_nonneg q.y, mul_self_nonneg q.z]
    refine ⟨Real.mul_self_sqrt h0, ?_⟩
    exact (Real.sqrt_pos.mpr (lt_of_le_of_ne h0 (Ne.symm hq))).ne'
  obtain ⟨m1, m1'⟩ := hm p1 h1
  obtain ⟨m2, m2'⟩ := hm p2 h2
  obtain ⟨m3, m3'⟩ := hm p3 h3
  simp only [basisP, P4.Dot]
  -- the rows of the matrix are orthonormal, and hence its columns
  obtain ⟨a, ha⟩ : ∃ a : V3, a = ⟨p1.x / p1.Mag, p1.y / p1.Mag, p1.z / p1.Mag⟩ := ⟨_, rfl⟩
  obtain ⟨b, hb⟩ : ∃ b : V3, b = ⟨p2.x / p2.Mag, p2.y / p2.Mag, p2.z / p2.Mag⟩ := ⟨_, rfl⟩
  obtain ⟨c, hc⟩ : ∃ c : V3, c = ⟨p3.x / p3.Mag, p3.y / p3.Mag, p3.z / p3.Mag⟩ := ⟨_, rfl⟩
  have ea : (p1.x * p.x + p1.y * p.y + p1.z * p.z) / p1.Mag = a.x * p.x + a.y * p.y + a.z * p.z := by rw [ha]; simp only []; ring
  have eb : (p2.x * p.x + p2.y * p.y + p2.z * p.z) / p2.Mag = b.x * p.x + b.y * p.y + b.z * p.z := by rw [hb]; simp only []; ring
  have ec : (p3.x * p.x + p3.y * p.y + p3.z * p.z) / p3.Mag = c.x * p.x + c.y * p.y + c.z * p.z := by rw [hc]; simp only []; ring
  rw [ea, eb, ec]
  have haa : a.x * a.x + a.y * a.y + a.z * a.z = 1 := by
    rw [ha]; simp only []; simp only [V3.dot] at m1; field_simp; linear_combination -m1
  have hbb : b.x * b.x + b.y * b.y + b.z * b.z = 1 := by
    rw [hb]; simp only []; simp only [V3.dot] at m2; field_simp; linear_combination -m2
  have hcc : c.x * c.x + c.y * c.y + c.z * c.z = 1 := by
    rw [hc]; simp only []; simp only [V3.dot] at m3; field_simp; linear_combination -m3
  have hab : a.x * b.x + a.y * b.y + a.z * b.z = 0 := by
    rw [ha, hb]; simp only []; simp only [V3.dot] at h12; field_simp; linear_combination h12
  have hac : a.x * c.x + a.y * c.y + a.z * c.z = 0 := by
    rw [ha, hc]; simp only []; simp only [V3.dot] at h13; field_simp; linear_combination h13
  have hbc : b.x * c.x + b.y * c.y + b.z * c.z = 0 := by
    rw [hb, hc]; simp only []; simp only [V3.dot] at h23; field_simp; linear_combination h23
  let A : Matrix (Fin 3) (Fin 3) ℝ := Matrix.of fun i j => (match i, j with
    | 0, 0 => a.x | 0, 1 => a.y | 0, 2 => a.z
    | 1, 0 => b.x | 1, 1 => b.y | 1, 2 => b.z
    | 2, 0 => c.x | 2, 1 => c.y | 2, 2 => c.z)
  have hA : A * A.transpose = 1 := by
    ext i j
    rw [Matrix.mul_apply, Fin.sum_univ_three]
    fin_cases i <;> fin_cases j <;> simp [A, Matrix.one_apply] <;> linarith
  have hA' := mul_eq_one_comm.mp hA
  have col : ∀ i j : Fin 3, A 0 i * A 0 j + A 1 i * A 1 j + A 2 i * A 2 j = if i = j then 1 else 0 := by
    intro i j
    have := congrFun (congrFun hA' i) j
    rw [Matrix.mul_apply, Fin.sum_univ_three, Matrix.one_apply] at this
    exact this
  have c00 := col 0 0
  have c11 := col 1 1
  have c22 := col 2 2
  have c01 := col 0 1
  have c02 := col 0 2
  have c12 := col 1 2
  simp [A] at c00 c11 c22 c01 c02 c12
  linear_combination -(p.x * p.x) * c00 - (p.y * p.y) * c11 - (p.z * p.z) * c22 - (2 * p.x * p.y) * c01 - (2 * p.x * p.z) * c02 - (2 * p.y * p.z) * c12

example : (⟨1, 1, 0⟩ : V3).dot ⟨1, 1, 0⟩ ≠ 0 ∧ (⟨1, 1, 0⟩ : V3).dot ⟨1, -1, 0⟩ = 0 ∧ (⟨1, 1, 0⟩ : V3).dot ⟨0, 0, 3⟩ = 0 ∧ (⟨1, -1, 0⟩ : V3).dot ⟨0, 0, 3⟩ = 0 := by
  simp [V3.dot]

/-! ### C63: helicity cosines and momentum transfers -/

/-- C63.  A helicity cosine lies between -1 and 1, if the total momentum of the reference is that of something with a mass. -/
theorem helicity_bounds (e : Event) (i j pR : List Nat) (hR : 0 < e.s pR) : |helicityCosine e i j pR| ≤ 1 := by
  unfold helicityCosine
  simp only [pFromEvent_eq]
  rw [s_eq] at hR
  have h1 := dotProduct_cauchy (total e i) (total e j) (total e pR) hR
  have h2 := mul_nonneg (dotProduct_self_nonneg (total e i) _ hR) (dotProduct_self_nonneg (total e j) _ hR)
  generalize dotProduct (total e i) (total e j) (total e pR) = b at h1 ⊢
  generalize dotProduct (total e i) (total e i) (total e pR) * dotProduct (total e j) (total e j) (total e pR) = d at h1 h2 ⊢
  rw [abs_div, abs_of_nonneg (Real.sqrt_nonneg d)]
  apply div_le_one_of_le₀ _ (Real.sqrt_nonneg d)
  exact Real.abs_le_sqrt (by rw [sq]; exact h1)

/-- C63.  Helicity cosines do not depend on the frame: boosts and rotations leave them unchanged. -/
theorem helicity_frame (e : Event) (nx ny nz v : ℝ) (hn : ¬(nx = 0 ∧ ny = 0 ∧ nz = 0)) (i j pR : List Nat)
    (hi : ∀ k ∈ i ++ j ++ pR, k < particles e) :
    helicityCosine (rotate e nx ny nz v) i j pR = helicityCosine e i j pR ∧
    (|v| < 1 → helicityCosine (boost e nx ny nz v) i j pR = helicityCosine e i j pR) := by
  have h1 : ∀ k ∈ i, k < particles e := fun k hk => hi k (by simp [hk])
  have h2 : ∀ k ∈ j, k < particles e := fun k hk => hi k (by simp [hk])
  have h3 : ∀ k ∈ pR, k < particles e := fun k hk => hi k (by simp [hk])
  refine ⟨?_, fun hv => ?_⟩
  · unfold helicityCosine
    simp only [pFromEvent_eq, total_rotate e nx ny nz v _ h1, total_rotate e nx ny nz v _ h2, total_rotate e nx ny nz v _ h3, dotProduct, rotateP_dot hn]
  · unfold helicityCosine
    simp only [pFromEvent_eq, total_boost e nx ny nz v _ h1, total_boost e nx ny nz v _ h2, total_boost e nx ny nz v _ h3, dotProduct, boostP_dot hn hv]

/-- C63.  In a frame where the reference is at rest the helicity cosine is the cosine of the angle between the two momenta. -/
theorem helicity_angle (e : Event) (i j pR : List Nat) (M : ℝ) (hM : M ≠ 0) (hR : total e pR = ⟨0, 0, 0, M⟩) :
    helicityCosine e i j pR = (total e i).vect.dot (total e j).vect /
      √((total e i).vect.dot (total e i).vect * (total e j).vect.dot (total e j).vect) := by
  have h : ∀ p q : P4, dotProduct p q ⟨0, 0, 0, M⟩ = p.vect.dot q.vect := by
    intro p q
    simp only [dotProduct, P4.Dot, P4.vect, V3.dot]
    field_simp
    ring
  unfold helicityCosine
  simp only [pFromEvent_eq, hR, h]

/-- C63.  The momentum transfer to two groups of particles is the momentum of either group in the rest frame of both. -/
theorem transfer_momentum (e : Event) (p1 p2 : List Nat) (M : ℝ) (hM : M ≠ 0) (hR : total e (p1 ++ p2) = ⟨0, 0, 0, M⟩) :
    momentumTransfer e p1 p2 = √((total e p1).vect.dot (total e p1).vect) ∧ momentumTransfer e p1 p2 = √((total e p2).vect.dot (total e p2).vect) := by
  have happ : ∀ l, total e (l ++ p2) = (total e l).add (total e p2) := by
    intro l
    induction l with
    | nil => simp [total, P4.add]
    | cons a l ih => rw [List.cons_append, total, ih, total]; ext <;> simp only [P4.add] <;> ring
  have h1 := happ p1
  rw [hR] at h1
  unfold momentumTransfer
  rw [s_eq, s_eq, s_eq, hR]
  generalize total e p1 = p at *
  generalize total e p2 = q at *
  obtain ⟨hx, hy, hz, hE⟩ : 0 = p.x + q.x ∧ 0 = p.y + q.y ∧ 0 = p.z + q.z ∧ M = p.E + q.E := by
    simpa [P4.add] using h1
  have ex : q.x = -p.x := by linarith
  have ey : q.y = -p.y := by linarith
  have ez : q.z = -p.z := by linarith
  have eE : q.E = M - p.E := by linarith
  constructor
  · congr 1
    simp only [Q2, P4.Dot, P4.vect, V3.dot, ex, ey, ez, eE]
    field_simp
    ring
  · congr 1
    simp only [Q2, P4.Dot, P4.vect, V3.dot, ex, ey, ez, eE]
    field_simp
    ring

example : ∃ e : Event, ∃ M : ℝ, M ≠ 0 ∧ total e ([0] ++ [1]) = ⟨0, 0, 0, M⟩ ∧ 0 < e.s ([0] ++ [1]) := by
  refine ⟨⟨8, fun i => if i = 0 then 1 else if i = 4 then -1 else if i = 3 then 2 else if i = 7 then 3 else 0⟩, 5, by norm_num, ?_, ?_⟩
  · simp only [total, momentum, P4.add, List.cons_append, List.nil_append]
    norm_num
  · rw [s_eq]
    simp only [total, momentum, P4.add, P4.Dot, List.cons_append, List.nil_append]
    norm_num

/-! ### C64: permutations of particles -/

/-- C64.  The invariant mass of particles is the square of their total momentum, whichever overload is called and in whichever order the particles are given. -/
theorem mass_overloads (e : Event) (l l' : List Nat) (h : l.Perm l') :
    e.s l = (total e l).Dot (total e l) ∧ e.s l' = e.s l ∧ (∀ i, e.s [i] = e.s1 i) ∧ (∀ i j, e.s [i, j] = e.s2 i j) ∧ ∀ i j k, e.s [i, j, k] = e.s3 i j k := by
  refine ⟨s_eq e l, ?_, fun i => ?_, fun _ _ => rfl, fun _ _ _ => rfl⟩
  · have ht : total e l' = total e l := by
      ext
      · rw [total_x, total_x]; exact ((h.map _).sum_eq).symm
      · rw [total_y, total_y]; exact ((h.map _).sum_eq).symm
      · rw [total_z, total_z]; exact ((h.map _).sum_eq).symm
      · rw [total_E, total_E]; exact ((h.map _).sum_eq).symm
    rw [s_eq, s_eq, ht]
  · rw [s_eq, s1_eq]

/-- C64.  Swapping two particles exchanges their momenta and nothing else; swapping twice restores the event. -/
theorem swap_particles (e : Event) (i j : Nat) :
    momentum (e.swap i j) i = momentum e j ∧ momentum (e.swap i j) j = momentum e i ∧ (∀ k, k ≠ i → k ≠ j → momentum (e.swap i j) k = momentum e k) ∧
    (e.swap i j).swap i j = e := by
  refine ⟨?_, ?_, ?_, ?_⟩
  · rw [momentum_swap, if_pos rfl]
  · rw [momentum_swap]
    by_cases h : j = i
    · rw [if_pos h, h]
    · rw [if_neg h, if_pos rfl]
  · intro k h1 h2
    rw [momentum_swap, if_neg h1, if_neg h2]
  · refine event_ext (by simp only [swap_size]) fun k => ?_
    simp only [momentum_swap]
    by_cases h1 : k = i
    · subst h1
      by_cases h2 : j = k
      · simp [h2]
      · simp [h2]
    · by_cases h2 : k = j
      · subst h2; simp [h1]
      · simp [h1, h2]

/-- C64.  Reordering by distinct addresses moves particle `k` to address `k` of the list and leaves other particles alone, so that the invariant mass of any
selection of particles is found at their addresses. -/
theorem reorder_particles (e : Event) (addresses : List Nat) (h : addresses.Nodup) :
    (∀ (k : Nat) (hk : k < addresses.length), momentum (e.reorder addresses) addresses[k] = momentum e k) ∧
    (∀ k, k ∉ addresses → momentum (e.reorder addresses) k = momentum e k) ∧
    ∀ l : List Nat, (∀ k ∈ l, k < addresses.length) → (e.reorder addresses).s (l.map fun k => addresses.getD k 0) = e.s l := by
  refine ⟨fun k hk => momentum_reorder e addresses h k hk, fun k hk => momentum_reorder_other e addresses k hk, fun l hl => ?_⟩
  rw [s_eq, s_eq]
  have : total (e.reorder addresses) (l.map fun k => addresses.getD k 0) = total e l := by
    induction l with
    | nil => rfl
    | cons k l ih =>
      rw [List.map_cons, total, total, ih fun j hj => hl j (List.mem_cons_of_mem _ hj)]
      have hk := hl k List.mem_cons_self
      rw [List.getD_eq_getElem?_getD, List.getElem?_eq_getElem hk, Option.getD_some, momentum_reorder e addresses h k hk]
  rw [this]

example : [2, 0, 1].Nodup := by decide

end AmpGen.Kinematics
