import Verif.Transform.Lemmas
/-
One transformation: inverse, and agreement of the representations.
-/
namespace AmpGen.Transform
open Complex Matrix

theorem Q_congr {a x y z a' x' y' z' : ℂ} (h0 : a = a') (h1 : x = x') (h2 : y = y') (h3 : z = z') : Q a x y z = Q a' x' y' z' := by
  rw [h0, h1, h2, h3]

/-- The matrices in terms of half the angle. -/
theorem rotate_forms (t : Transform) (ht : t.type = .rotate) (h1 : -1 ≤ t.arg) (h2 : t.arg ≤ 1) :
    ∃ c s : ℝ, c ^ 2 + s ^ 2 = 1 ∧ t.arg = c ^ 2 - s ^ 2 ∧ √(1 - t.arg * t.arg) = 2 * c * s ∧
      ∀ u : Transform, u.type = .rotate → u.arg = t.arg →
        spin u = Q c (-(I * s * u.kx)) (-(I * s * u.ky)) (-(I * s * u.kz)) ∧ bisp u = make_bispinor_operator (spin u) 0 0 (spin u) := by
  obtain ⟨c, s, e1, e2, e3, e4, e5⟩ := rotate_half h1 h2
  refine ⟨c, s, e5, e3, e4, fun u hu ha => ?_⟩
  have hs : spin u = rotate_spinor u := by unfold spin; rw [hu]
  refine ⟨by rw [hs, rotate_spinor_eq, ha, e1, e2], ?_⟩
  rw [hs]
  unfold bisp Transform.matrix
  rw [hu]

/-- The matrices in terms of half the rapidity. -/
theorem boost_forms (t : Transform) (ht : t.type = .boost) (h1 : 1 ≤ t.arg) :
    ∃ c s : ℝ, c ^ 2 - s ^ 2 = 1 ∧ t.arg = c ^ 2 + s ^ 2 ∧ √(t.arg * t.arg - 1) = 2 * c * s ∧
      ∀ u : Transform, u.type = .boost → u.arg = t.arg →
        spin u = Q c (s * u.kx) (s * u.ky) (s * u.kz) ∧
        bisp u = make_bispinor_operator (Q c 0 0 0) (Q 0 (-(s * u.kx)) (-(s * u.ky)) (-(s * u.kz))) (Q 0 (-(s * u.kx)) (-(s * u.ky)) (-(s * u.kz))) (Q c 0 0 0) := by
  obtain ⟨c, s, e1, e2, e3, e4, e5⟩ := boost_half h1
  refine ⟨c, s, e5, e3, e4, fun u hu ha => ?_⟩
  have hs : spin u = boost_spinor u := by unfold spin; rw [hu]
  refine ⟨by rw [hs, boost_spinor_eq, ha, e1, e2], ?_⟩
  unfold bisp Transform.matrix
  rw [hu]
  simp only []
  rw [ha, e1, e2]
  congr 1
  all_goals
    ext i j
    fin_cases i <;> fin_cases j <;> simp [sigma_dot_p, Q, Sigma0, Sigma1, Sigma2] <;> ring

theorem Proper.inverse {t : Transform} (h : Proper t) : Proper t.inverse := by
  refine ⟨?_, h.2⟩
  show (-t.kx) ^ 2 + (-t.ky) ^ 2 + (-t.kz) ^ 2 = 1
  rw [neg_sq, neg_sq, neg_sq]; exact h.1

theorem inverse_inverse (t : Transform) : t.inverse.inverse = t := by
  unfold Transform.inverse; simp

/-- A transformation followed by its inverse is the identity, on spinors and bispinors. -/
theorem spin_inverse {t : Transform} (h : Proper t) : spin t.inverse * spin t = 1 ∧ bisp t.inverse * bisp t = 1 := by
  obtain ⟨hk, hp⟩ := h
  have hk' : ((t.kx : ℂ)) ^ 2 + (t.ky : ℂ) ^ 2 + (t.kz : ℂ) ^ 2 = 1 := by exact_mod_cast congrArg (fun x : ℝ => (x : ℂ)) hk
  cases ht : t.type with
  | rotate =>
    rw [ht] at hp
    obtain ⟨c, s, h1, -, -, h2⟩ := rotate_forms t ht hp.1 hp.2
    have h1' : (c : ℂ) ^ 2 + (s : ℂ) ^ 2 = 1 := by exact_mod_cast congrArg (fun x : ℝ => (x : ℂ)) h1
    obtain ⟨e1, e2⟩ := h2 t ht rfl
    obtain ⟨e3, e4⟩ := h2 t.inverse ht rfl
    have hm : spin t.inverse * spin t = 1 := by
      rw [e1, e3, Q_mul, Q_one]
      have hI : I * I = -1 := I_mul_I
      simp only [Transform.inverse, ofReal_neg]
      refine Q_congr ?_ ?_ ?_ ?_
      · linear_combination h1' + (s : ℂ) ^ 2 * hk' - (s : ℂ) ^ 2 * ((t.kx : ℂ) ^ 2 + (t.ky : ℂ) ^ 2 + (t.kz : ℂ) ^ 2) * hI
      · ring
      · ring
      · ring
    refine ⟨hm, ?_⟩
    rw [e2, e4, bis_mul, hm]
    simp only [Matrix.zero_mul, Matrix.mul_zero, add_zero, zero_add]
    exact bis_one.symm
  | boost =>
    rw [ht] at hp
    obtain ⟨c, s, h1, -, -, h2⟩ := boost_forms t ht hp
    have h1' : (c : ℂ) ^ 2 - (s : ℂ) ^ 2 = 1 := by exact_mod_cast congrArg (fun x : ℝ => (x : ℂ)) h1
    obtain ⟨e1, e2⟩ := h2 t ht rfl
    obtain ⟨e3, e4⟩ := h2 t.inverse ht rfl
    refine ⟨?_, ?_⟩
    · rw [e1, e3, Q_mul, Q_one]
      simp only [Transform.inverse, ofReal_neg]
      refine Q_congr ?_ ?_ ?_ ?_
      · linear_combination h1' - (s : ℂ) ^ 2 * hk'
      · ring
      · ring
      · ring
    · rw [e2, e4, bis_mul, bis_one]
      simp only [Q_mul, Q_add, Q_one, Q_zero, Transform.inverse, ofReal_neg]
      congr 1
      all_goals
        refine Q_congr ?_ ?_ ?_ ?_
        all_goals first
          | ring1
          | linear_combination h1' - (s : ℂ) ^ 2 * hk'

/-- The spinors and bispinors transform as the vectors do. -/
theorem covering {t : Transform} (h : Proper t) (p : V4) :
    spin t * weyl p * (spin t).conjTranspose = weyl ((vect t).mulVec p) ∧ bisp t * slash p * bisp t.inverse = slash ((vect t).mulVec p) := by
  obtain ⟨hk, hp⟩ := h
  have hk' : ((t.kx : ℂ)) ^ 2 + (t.ky : ℂ) ^ 2 + (t.kz : ℂ) ^ 2 = 1 := by exact_mod_cast congrArg (fun x : ℝ => (x : ℂ)) hk
  have hI : I ^ 2 = -1 := I_sq
  have hI3 : I ^ 3 = -I := I_pow_three
  have hI4 : I ^ 4 = 1 := I_pow_four
  cases ht : t.type with
  | rotate =>
    rw [ht] at hp
    obtain ⟨c, s, h1, h3, h4, h2⟩ := rotate_forms t ht hp.1 hp.2
    have h1' : (c : ℂ) ^ 2 + (s : ℂ) ^ 2 = 1 := by exact_mod_cast congrArg (fun x : ℝ => (x : ℂ)) h1
    have h3' : (t.arg : ℂ) = (c : ℂ) ^ 2 - (s : ℂ) ^ 2 := by rw [h3]; push_cast; rfl
    have hd : (c : ℂ) ^ 2 + (s : ℂ) ^ 2 * ((t.kx : ℂ) ^ 2 + (t.ky : ℂ) ^ 2 + (t.kz : ℂ) ^ 2) = 1 := by rw [hk', mul_one]; exact h1'
    have h5 : (1 : ℂ) - ((c : ℂ) ^ 2 - (s : ℂ) ^ 2) = 2 * (s : ℂ) ^ 2 := by linear_combination -h1'
    have hv := vect_rotate t ht p (sq := 2 * (c : ℂ) * (s : ℂ)) (by rw [h4]; push_cast; rfl)
    rw [h3', h5] at hv
    obtain ⟨e1, e2⟩ := h2 t ht rfl
    obtain ⟨e3, e4⟩ := h2 t.inverse ht rfl
    have hct : (spin t).conjTranspose = spin t.inverse := by
      rw [e1, e3]
      ext i j
      fin_cases i <;> fin_cases j <;> simp [Q, Matrix.conjTranspose_apply, Transform.inverse] <;> ring
    have hx : ∀ a x y z : ℂ, spin t * Q a x y z * spin t.inverse =
        Q a (x + 2 * c * s * (t.ky * z - t.kz * y) + 2 * (s : ℂ) ^ 2 * (t.kx * (t.kx * x + t.ky * y + t.kz * z) - (t.kx ^ 2 + t.ky ^ 2 + t.kz ^ 2) * x))
          (y + 2 * c * s * (t.kz * x - t.kx * z) + 2 * (s : ℂ) ^ 2 * (t.ky * (t.kx * x + t.ky * y + t.kz * z) - (t.kx ^ 2 + t.ky ^ 2 + t.kz ^ 2) * y))
          (z + 2 * c * s * (t.kx * y - t.ky * x) + 2 * (s : ℂ) ^ 2 * (t.kz * (t.kx * x + t.ky * y + t.kz * z) - (t.kx ^ 2 + t.ky ^ 2 + t.kz ^ 2) * z)) := by
      intro a x y z
      rw [e1, e3, Q_mul, Q_mul]
      simp only [Transform.inverse, ofReal_neg]
      refine Q_congr ?_ ?_ ?_ ?_
      · ring_nf; simp only [hI, hI3, hI4]; linear_combination a * hd
      · ring_nf; simp only [hI, hI3, hI4]; linear_combination x * hd
      · ring_nf; simp only [hI, hI3, hI4]; linear_combination y * hd
      · ring_nf; simp only [hI, hI3, hI4]; linear_combination z * hd
    constructor
    · rw [hct, weyl_eq, weyl_eq, hx, hv]
      refine Q_congr ?_ ?_ ?_ ?_ <;> simp only [] <;> ring
    · rw [slash_eq, slash_eq, e2, e4, bis_mul, bis_mul]
      simp only [Matrix.zero_mul, Matrix.mul_zero, add_zero, zero_add]
      rw [hx, hx, hx, hx, hv]
      congr 1
      all_goals
        refine Q_congr ?_ ?_ ?_ ?_ <;> ring
  | boost =>
    rw [ht] at hp
    obtain ⟨c, s, h1, h3, h4, h2⟩ := boost_forms t ht hp
    have h1' : (c : ℂ) ^ 2 - (s : ℂ) ^ 2 = 1 := by exact_mod_cast congrArg (fun x : ℝ => (x : ℂ)) h1
    have h3' : (t.arg : ℂ) = (c : ℂ) ^ 2 + (s : ℂ) ^ 2 := by rw [h3]; push_cast; rfl
    have h5 : (c : ℂ) ^ 2 + (s : ℂ) ^ 2 - 1 = 2 * (s : ℂ) ^ 2 := by linear_combination h1'
    have hd : (c : ℂ) ^ 2 - (s : ℂ) ^ 2 * ((t.kx : ℂ) ^ 2 + (t.ky : ℂ) ^ 2 + (t.kz : ℂ) ^ 2) = 1 := by rw [hk', mul_one]; exact h1'
    have hv := vect_boost t ht p (sq := 2 * (c : ℂ) * (s : ℂ)) (by rw [h4]; push_cast; rfl)
    rw [h3', h5] at hv
    obtain ⟨e1, e2⟩ := h2 t ht rfl
    obtain ⟨e3, e4⟩ := h2 t.inverse ht rfl
    have hct : (spin t).conjTranspose = spin t := by
      rw [e1]
      ext i j
      fin_cases i <;> fin_cases j <;> simp [Q, Matrix.conjTranspose_apply] <;> ring
    constructor
    · rw [hct, weyl_eq, weyl_eq, hv, e1, Q_mul, Q_mul]
      refine Q_congr ?_ ?_ ?_ ?_
      · simp only []; ring_nf; (try simp only [hI, hI3, hI4]); linear_combination (p 3) * hd
      · simp only []; ring_nf; (try simp only [hI, hI3, hI4]); linear_combination (-(p 0)) * hd
      · simp only []; ring_nf; (try simp only [hI, hI3, hI4]); linear_combination (-(p 1)) * hd
      · simp only []; ring_nf; (try simp only [hI, hI3, hI4]); linear_combination (-(p 2)) * hd
    · rw [slash_eq, slash_eq, e2, e4, bis_mul, bis_mul, hv]
      simp only [Q_mul, Q_add, Transform.inverse, ofReal_neg]
      congr 1
      all_goals refine Q_congr ?_ ?_ ?_ ?_
      all_goals first
        | (ring_nf; done)
        | (ring_nf; (try simp only [hI, hI3, hI4]); ring_nf; done)
        | (ring_nf; (try simp only [hI, hI3, hI4]); linear_combination (p 3) * hd)
        | (ring_nf; (try simp only [hI, hI3, hI4]); linear_combination (p 0) * hd)
        | (ring_nf; (try simp only [hI, hI3, hI4]); linear_combination (p 1) * hd)
        | (ring_nf; (try simp only [hI, hI3, hI4]); linear_combination (p 2) * hd)
        | (ring_nf; (try simp only [hI, hI3, hI4]); linear_combination (-(p 3)) * hd)
        | (ring_nf; (try simp only [hI, hI3, hI4]); linear_combination (-(p 0)) * hd)
        | (ring_nf; (try simp only [hI, hI3, hI4]); linear_combination (-(p 1)) * hd)
        | (ring_nf; (try simp only [hI, hI3, hI4]); linear_combination (-(p 2)) * hd)

end AmpGen.Transform
