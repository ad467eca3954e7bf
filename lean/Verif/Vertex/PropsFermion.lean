import Verif.Vertex.LemmasDirac
import Verif.Vertex.PropsVertex
/-
Properties of the tensors of fermions: the Dirac matrices, the projectors on spin one half and three half, and the vertices.
-/
namespace AmpGen.Vertex
open Spec Matrix

/-- The matrices obey the algebra of Dirac: products of different matrices change sign with the order, the square is plus or minus one, and
the fifth is `i` times the product of the four. -/
theorem dirac_matrices :
    (∀ μ ν : Fin 4, Gamma4Vec μ * Gamma4Vec ν + Gamma4Vec ν * Gamma4Vec μ = if μ = ν then (if μ = 3 then (2 : ℂ) else -2) • 1 else 0) ∧
      Gamma 4 = Complex.I • (Gamma4Vec 3 * Gamma4Vec 0 * Gamma4Vec 1 * Gamma4Vec 2) := by
  constructor
  · intro μ ν
    rw [clifford]
    unfold metric g
    split
    · split <;> norm_num
    · rw [mul_zero, zero_smul]
  · rw [Gamma4Vec_eq, Gamma4Vec_eq, Gamma4Vec_eq, Gamma4Vec_eq]
    ext i j
    fin_cases i <;> fin_cases j <;> simp [Gamma, Matrix.mul_apply, Fin.sum_univ_four]

/-- The other sets of matrices: Pauli's matrices are hermitian with squares one and σ₁σ₂ = iσ₃, the matrices of the spin of a Dirac spinor are products of two of Dirac's
matrices, the generators of rotations give the vector product with an axis, and the matrices of SU(3) are hermitian, traceless and orthogonal. -/
theorem spin_matrices :
    (∀ i, (Sigma i).conjTranspose = Sigma i ∧ Sigma i * Sigma i = 1 ∧ Sigma i * Sigma (i + 1) = Complex.I • Sigma (i + 2)) ∧
    (Sigma4 0 = Complex.I • (Gamma4Vec 1 * Gamma4Vec 2) ∧ Sigma4 1 = Complex.I • (Gamma4Vec 2 * Gamma4Vec 0) ∧ Sigma4 2 = Complex.I • (Gamma4Vec 0 * Gamma4Vec 1)) ∧
    (∀ v : V4 ℂ, SO3 0 *ᵥ v = ![0, -v 2, v 1, 0] ∧ SO3 1 *ᵥ v = ![v 2, 0, -v 0, 0] ∧ SO3 2 *ᵥ v = ![-v 1, v 0, 0, 0]) ∧
    (∀ a b, (SU3 a).conjTranspose = SU3 a ∧ (SU3 a).trace = 0 ∧ (SU3 a * SU3 b).trace = if a = b then 2 else 0) := by
  refine ⟨?_, ⟨?_, ?_, ?_⟩, ?_, ?_⟩
  · intro i
    refine ⟨?_, ?_, ?_⟩ <;> fin_cases i <;> ext j k <;> fin_cases j <;> fin_cases k <;> simp [Sigma, Matrix.mul_apply, Fin.sum_univ_two]
  · rw [Gamma4Vec_eq, Gamma4Vec_eq]; ext j k; fin_cases j <;> fin_cases k <;> simp [Sigma4, Gamma, Matrix.mul_apply, Fin.sum_univ_four]
  · rw [Gamma4Vec_eq, Gamma4Vec_eq]; ext j k; fin_cases j <;> fin_cases k <;> simp [Sigma4, Gamma, Matrix.mul_apply, Fin.sum_univ_four]
  · rw [Gamma4Vec_eq, Gamma4Vec_eq]; ext j k; fin_cases j <;> fin_cases k <;> simp [Sigma4, Gamma, Matrix.mul_apply, Fin.sum_univ_four]
  · intro v
    refine ⟨?_, ?_, ?_⟩ <;> ext j <;> fin_cases j <;> simp [SO3, Matrix.mulVec, dotProduct, Fin.sum_univ_four]
  · intro a b
    have h3 : ((√3 : ℝ) : ℂ) * ((√3 : ℝ) : ℂ) = 3 := by
      rw [← Complex.ofReal_mul, Real.mul_self_sqrt (by norm_num)]; norm_num
    have hne : ((√3 : ℝ) : ℂ) ≠ 0 := by
      intro h; rw [h] at h3; norm_num at h3
    refine ⟨?_, ?_, ?_⟩
    · fin_cases a <;> ext j k <;> fin_cases j <;> fin_cases k <;> simp [SU3]
    · fin_cases a <;> simp [SU3, Matrix.trace, Fin.sum_univ_three]
      field_simp; ring
    · fin_cases a <;> fin_cases b <;> simp [SU3, Matrix.trace, Matrix.mul_apply, Fin.sum_univ_three] <;> (try field_simp) <;> (try ring_nf) <;> (try norm_num)
      linear_combination (-2 : ℂ) * h3

theorem Spec.SpinHalf.smul {s m : ℂ} {P ψ : V4 ℂ} (h : SpinHalf Gamma4Vec s m P ψ) (c : ℂ) : SpinHalf Gamma4Vec s m P (c • ψ) := by
  unfold SpinHalf at *
  rw [Matrix.mulVec_smul, h, smul_comm]

theorem Spec.SpinHalf.sum {ι : Type} {s m : ℂ} {P : V4 ℂ} (t : Finset ι) {ψ : ι → V4 ℂ} (h : ∀ i, SpinHalf Gamma4Vec s m P (ψ i)) (c : ι → ℂ) :
    SpinHalf Gamma4Vec s m P (∑ i ∈ t, c i • ψ i) := by
  unfold SpinHalf at *
  rw [Matrix.mulVec_sum, Finset.smul_sum]
  exact Finset.sum_congr rfl fun i _ => by rw [Matrix.mulVec_smul, h i, smul_comm]

/-- The projector of a fermion or of an antifermion. -/
def IsProjector (s m : ℂ) (P : V4 ℂ) (F : M4) : Prop := (s = 1 ∧ F = spin1h m P) ∨ (s = -1 ∧ F = spin1hb m P)

theorem IsProjector.slash_mul {s m : ℂ} {P : V4 ℂ} {F : M4} (h : IsProjector s m P F) (hm : m ≠ 0) (hP : m * m = dot P P) :
    slash P * F = (s * m) • F := by
  rcases h with ⟨rfl, rfl⟩ | ⟨rfl, rfl⟩
  · rw [one_mul, slash_spin1h hm hP]
  · rw [slash_spin1hb hm hP]
    congr 1
    ring

theorem half_state {s m : ℂ} {P : V4 ℂ} {F : M4} (h : IsProjector s m P F) (hm : m ≠ 0) (hP : m * m = dot P P) (ψ : V4 ℂ) :
    SpinHalf Gamma4Vec s m P (F *ᵥ ψ) := by
  unfold SpinHalf
  rw [← slash_eq, Matrix.mulVec_mulVec, h.slash_mul hm hP, Matrix.smul_mulVec]

theorem half_state_mul {s m : ℂ} {P : V4 ℂ} {F : M4} (h : IsProjector s m P F) (hm : m ≠ 0) (hP : m * m = dot P P) (M : M4) (ψ : V4 ℂ) :
    SpinHalf Gamma4Vec s m P ((F * M) *ᵥ ψ) := by
  rw [← Matrix.mulVec_mulVec]
  exact half_state h hm hP _

theorem half_keep {s m : ℂ} {P : V4 ℂ} {F : M4} (h : IsProjector s m P F) (hm : m ≠ 0) (ψ : V4 ℂ) (hψ : SpinHalf Gamma4Vec s m P ψ) :
    F *ᵥ ψ = ψ := by
  unfold SpinHalf at hψ
  rw [← slash_eq] at hψ
  rcases h with ⟨rfl, rfl⟩ | ⟨rfl, rfl⟩
  · unfold spin1h
    rw [Matrix.smul_mulVec, Matrix.add_mulVec, Matrix.smul_mulVec, hψ, Matrix.one_mulVec]
    match_scalars
    field_simp
    norm_num
  · unfold spin1hb
    rw [Matrix.smul_mulVec, Matrix.add_mulVec, Matrix.neg_mulVec, Matrix.smul_mulVec, hψ, Matrix.one_mulVec]
    match_scalars
    field_simp
    norm_num

/-- The projectors on spin one half: every result obeys the Dirac equation, of a fermion or of an antifermion, every solution is kept, and the two
projectors add up to one. -/
theorem spin1h_projector (m : ℂ) (P : V4 ℂ) (hm : m ≠ 0) (hP : m ^ 2 = minkowski P P) :
    (∀ ψ, SpinHalf Gamma4Vec 1 m P (spin1h m P *ᵥ ψ)) ∧ (∀ ψ, SpinHalf Gamma4Vec 1 m P ψ → spin1h m P *ᵥ ψ = ψ) ∧
      (∀ ψ, SpinHalf Gamma4Vec (-1) m P (spin1hb m P *ᵥ ψ)) ∧ (∀ ψ, SpinHalf Gamma4Vec (-1) m P ψ → spin1hb m P *ᵥ ψ = ψ) ∧
      spin1h m P + spin1hb m P = 1 := by
  have hP' : m * m = dot P P := by rw [dot_eq, ← hP]; ring
  exact ⟨half_state (.inl ⟨rfl, rfl⟩) hm hP', half_keep (.inl ⟨rfl, rfl⟩) hm, half_state (.inr ⟨rfl, rfl⟩) hm hP',
    half_keep (.inr ⟨rfl, rfl⟩) hm, spin_sum⟩

/-- The projector of the other sign. -/
theorem IsProjector.swap {s m : ℂ} {P : V4 ℂ} {F : M4} (h : IsProjector s m P F) :
    ∃ F', IsProjector (-s) m P F' ∧ (∀ L, dot P L = 0 → F * slash L = slash L * F') ∧ (∀ L, dot P L = 0 → F' * slash L = slash L * F) := by
  rcases h with ⟨rfl, rfl⟩ | ⟨rfl, rfl⟩
  · exact ⟨spin1hb m P, .inr ⟨rfl, rfl⟩, fun L hL => spin1h_slash L hL, fun L hL => spin1hb_slash L hL⟩
  · exact ⟨spin1h m P, .inl ⟨by ring, rfl⟩, fun L hL => spin1hb_slash L hL, fun L hL => spin1h_slash L hL⟩

theorem twiddle_swap {P : V4 ℂ} {F F' : M4} (hP : dot P P ≠ 0) (h : ∀ L, dot P L = 0 → F * slash L = slash L * F') (μ : Fin 4) :
    F * gammaTwiddle P μ = gammaTwiddle P μ * F' := by
  rw [twiddle_slash]
  exact h _ (spin1_row_transverse P hP μ)

/-- The sum of products of the matrices. -/
theorem gamma_twiddle_sum (P : V4 ℂ) (hP : dot P P ≠ 0) : ∑ μ, (g μ : ℂ) • (Gamma4Vec μ * gammaTwiddle P μ) = (3 : ℂ) • 1 := by
  have e : ∀ μ, (g μ : ℂ) • (Gamma4Vec μ * gammaTwiddle P μ) = (1 : M4) - (1 / dot P P) • (((g μ * P μ) • Gamma4Vec μ) * slash P) := by
    intro μ
    rw [gammaTwiddle_eq, mul_sub, clifford_diag, smul_sub, smul_smul, g_sq, one_smul, mul_smul_comm, smul_mul_assoc, smul_smul, smul_smul]
    congr 2
    ring
  rw [Finset.sum_congr rfl fun μ _ => e μ, Finset.sum_sub_distrib, ← Finset.smul_sum, ← Finset.sum_mul]
  change _ - _ • (slash P * slash P) = _
  rw [slash_sq, smul_smul, one_div_mul_cancel hP, one_smul, Finset.sum_const, Finset.card_univ, Fintype.card_fin]
  have : (4 : ℕ) • (1 : M4) = (4 : ℂ) • 1 := by
    rw [← Nat.cast_smul_eq_nsmul ℂ]
    norm_num
  rw [this]
  match_scalars
  norm_num

theorem twiddle_transverse (P : V4 ℂ) (hP : dot P P ≠ 0) : ∑ μ, (g μ * P μ) • gammaTwiddle P μ = 0 := by
  rw [twiddle_sum]
  have : pWave P P = 0 := by
    funext μ
    unfold pWave
    field_simp
    simp
  rw [this]
  unfold slash
  simp

/-- A state of spin three half from its elements: the matrices `A μ` are applied to one spinor. -/
theorem rarita {s m : ℂ} {P : V4 ℂ} (A : Fin 4 → M4) (h1 : ∀ μ, slash P * A μ = (s * m) • A μ) (h2 : ∑ μ, (g μ * P μ) • A μ = 0)
    (h3 : ∑ μ, (g μ : ℂ) • (Gamma4Vec μ * A μ) = 0) (ψ : V4 ℂ) : SpinThreeHalf Gamma4Vec s m P (fun μ => A μ *ᵥ ψ) := by
  refine ⟨fun μ => ?_, fun a => ?_, ?_⟩
  · unfold SpinHalf
    rw [← slash_eq, Matrix.mulVec_mulVec, h1, Matrix.smul_mulVec]
  · rw [← dot_eq]
    unfold dot
    have := congrFun (congrArg (fun M : M4 => M *ᵥ ψ) h2) a
    simp only [Matrix.sum_mulVec, Matrix.smul_mulVec, Matrix.zero_mulVec, Finset.sum_apply, Pi.smul_apply, smul_eq_mul, Pi.zero_apply] at this
    exact this
  · have := congrArg (fun M : M4 => M *ᵥ ψ) h3
    simp only [Matrix.sum_mulVec, Matrix.smul_mulVec, Matrix.zero_mulVec] at this
    rw [Fin.sum_univ_four, g0, g1, g2, g3] at this
    simp only [Matrix.mulVec_mulVec]
    rw [← this]
    simp only [neg_smul, one_smul]
    abel

/-- The spin-three-half tensor with the index `ν` and its spinor index left open. -/
theorem spin3h_cols {s m : ℂ} {P : V4 ℂ} {F : M4} (hF : IsProjector s m P F) (hm : m ≠ 0) (hP : m * m = dot P P) (ν : Fin 4) (ψ : V4 ℂ) :
    SpinThreeHalf Gamma4Vec s m P (fun μ => spin3h F P μ ν *ᵥ ψ) := by
  have hPP : dot P P ≠ 0 := by rw [← hP]; exact mul_ne_zero hm hm
  obtain ⟨F', hF', hsw, hsw'⟩ := hF.swap
  have him : ∀ μ ν, imposeSymmetry (spin1 P) μ ν = spin1 P μ ν := by
    intro μ ν
    unfold imposeSymmetry
    split
    · rw [spin1_symm]
    · rfl
  refine rarita (fun μ => spin3h F P μ ν) (fun μ => ?_) ?_ ?_ ψ
  · unfold spin3h
    rw [mul_add, mul_smul_comm, mul_smul_comm, ← mul_assoc, ← mul_assoc, hF.slash_mul hm hP, smul_mul_assoc, smul_mul_assoc]
    module
  · unfold spin3h
    simp only [him, smul_add, Finset.sum_add_distrib]
    have e1 : ∑ μ, (g μ * P μ) • ((-1 * spin1 P μ ν) • F) = 0 := by
      simp only [smul_smul]
      rw [← Finset.sum_smul]
      have := spin1_transverse P hPP ν
      unfold dot at this
      have e : ∑ μ, g μ * P μ * (-1 * spin1 P μ ν) = -∑ μ, g μ * P μ * spin1 P μ ν := by
        rw [← Finset.sum_neg_distrib]
        exact Finset.sum_congr rfl fun μ _ => by ring
      rw [e, this, neg_zero, zero_smul]
    have e2 : ∑ μ, (g μ * P μ) • ((1 / 3 : ℂ) • (F * gammaTwiddle P μ * gammaTwiddle P ν)) =
        (1 / 3 : ℂ) • (F * (∑ μ, (g μ * P μ) • gammaTwiddle P μ) * gammaTwiddle P ν) := by
      rw [Finset.mul_sum, Finset.sum_mul, Finset.smul_sum]
      exact Finset.sum_congr rfl fun μ _ => by rw [mul_smul_comm, smul_mul_assoc, smul_comm]
    rw [e1, e2, twiddle_transverse P hPP]
    simp
  · unfold spin3h
    simp only [him, mul_add, smul_add, Finset.sum_add_distrib]
    have e1 : ∑ μ, (g μ : ℂ) • (Gamma4Vec μ * ((-1 * spin1 P μ ν) • F)) = -(gammaTwiddle P ν * F) := by
      rw [twiddle_slash]
      unfold slash
      rw [Finset.sum_mul, ← Finset.sum_neg_distrib]
      refine Finset.sum_congr rfl fun μ _ => ?_
      beta_reduce
      rw [mul_smul_comm, smul_smul, spin1_symm P ν μ, smul_mul_assoc, ← neg_smul]
      congr 1
      ring
    have e2 : ∑ μ, (g μ : ℂ) • (Gamma4Vec μ * ((1 / 3 : ℂ) • (F * gammaTwiddle P μ * gammaTwiddle P ν))) = gammaTwiddle P ν * F := by
      have e3 : ∀ μ, (g μ : ℂ) • (Gamma4Vec μ * ((1 / 3 : ℂ) • (F * gammaTwiddle P μ * gammaTwiddle P ν))) =
          (1 / 3 : ℂ) • (((g μ : ℂ) • (Gamma4Vec μ * gammaTwiddle P μ)) * (F' * gammaTwiddle P ν)) := by
        intro μ
        rw [twiddle_swap hPP hsw μ, mul_smul_comm, smul_comm, smul_mul_assoc]
        simp only [mul_assoc]
      rw [Finset.sum_congr rfl fun μ _ => e3 μ, ← Finset.smul_sum, ← Finset.sum_mul, gamma_twiddle_sum P hPP, smul_mul_assoc, one_mul, smul_smul,
        twiddle_swap hPP hsw' ν]
      norm_num
    rw [e1, e2]
    abel

theorem Spec.SpinThreeHalf.add {s m : ℂ} {P : V4 ℂ} {φ ψ : Fin 4 → V4 ℂ} (h : SpinThreeHalf Gamma4Vec s m P φ) (h' : SpinThreeHalf Gamma4Vec s m P ψ) :
    SpinThreeHalf Gamma4Vec s m P (fun μ => φ μ + ψ μ) := by
  refine ⟨fun μ => ?_, fun a => ?_, ?_⟩
  · have h1 := h.1 μ
    have h2 := h'.1 μ
    unfold SpinHalf at *
    rw [Matrix.mulVec_add, h1, h2, smul_add]
  · have h1 := h.2.1 a
    have h2 := h'.2.1 a
    unfold minkowski at *
    simp only [Pi.add_apply]
    linear_combination h1 + h2
  · have h1 := h.2.2
    have h2 := h'.2.2
    simp only [Matrix.mulVec_add]
    have := congrArg₂ (· + ·) h1 h2
    simp only [add_zero] at this
    rw [← this]
    abel

theorem Spec.SpinThreeHalf.smul {s m : ℂ} {P : V4 ℂ} {φ : Fin 4 → V4 ℂ} (h : SpinThreeHalf Gamma4Vec s m P φ) (c : ℂ) :
    SpinThreeHalf Gamma4Vec s m P (fun μ => c • φ μ) := by
  refine ⟨fun μ => (h.1 μ).smul c, fun a => ?_, ?_⟩
  · have h1 := h.2.1 a
    unfold minkowski at *
    simp only [Pi.smul_apply, smul_eq_mul]
    linear_combination c * h1
  · simp only [Matrix.mulVec_smul]
    rw [← smul_sub, ← smul_sub, ← smul_sub, h.2.2, smul_zero]

/-- The projector on spin three half, for fermions and antifermions: every result meets the conditions of Rarita and Schwinger, and every spinor with
a vector index which meets them is kept, up to the sign minus one of the sum over space indices. -/
theorem spin3h_projector (m : ℂ) (P : V4 ℂ) (hm : m ≠ 0) (hP : m ^ 2 = minkowski P P) (s : ℂ) (F : M4)
    (hF : (s = 1 ∧ F = spin1h m P) ∨ (s = -1 ∧ F = spin1hb m P)) (ψ : Fin 4 → V4 ℂ) :
    let result (μ : Fin 4) := spin3h F P μ 3 *ᵥ ψ 3 - spin3h F P μ 0 *ᵥ ψ 0 - spin3h F P μ 1 *ᵥ ψ 1 - spin3h F P μ 2 *ᵥ ψ 2
    SpinThreeHalf Gamma4Vec s m P result ∧ (SpinThreeHalf Gamma4Vec s m P ψ → result = -ψ) := by
  intro result
  have hF' : IsProjector s m P F := hF
  have hP' : m * m = dot P P := by rw [dot_eq, ← hP]; ring
  have hPP : dot P P ≠ 0 := by rw [← hP']; exact mul_ne_zero hm hm
  have er : result = fun μ => ∑ ν, (g ν : ℂ) • (spin3h F P μ ν *ᵥ ψ ν) := by
    funext μ
    rw [Fin.sum_univ_four, g0, g1, g2, g3]
    simp only [neg_smul, one_smul, result]
    abel
  constructor
  · have h3 := spin3h_cols hF' hm hP' 3 (ψ 3)
    have h0 := (spin3h_cols hF' hm hP' 0 (ψ 0)).smul (-1)
    have h1 := (spin3h_cols hF' hm hP' 1 (ψ 1)).smul (-1)
    have h2 := (spin3h_cols hF' hm hP' 2 (ψ 2)).smul (-1)
    have := ((h3.add h0).add h1).add h2
    convert this using 2
    simp only [result, neg_smul, one_smul]
    abel
  · intro hψ
    rw [er]
    funext μ
    have him : ∀ ν, imposeSymmetry (spin1 P) μ ν = spin1 P μ ν := by
      intro ν
      unfold imposeSymmetry
      split
      · rw [spin1_symm]
      · rfl
    unfold spin3h
    simp only [him, Matrix.add_mulVec, Matrix.smul_mulVec, smul_add, Finset.sum_add_distrib]
    have e1 : ∑ ν, (g ν : ℂ) • ((-1 * spin1 P μ ν) • (F *ᵥ ψ ν)) = -ψ μ := by
      simp only [half_keep hF' hm _ (hψ.1 _)]
      funext a
      simp only [Finset.sum_apply, Pi.smul_apply, smul_eq_mul, Pi.neg_apply]
      have h := spin1_keep P (fun ν => ψ ν a) (by rw [dot_eq]; exact hψ.2.1 a) μ
      beta_reduce at h
      rw [← h, ← Finset.sum_neg_distrib]
      exact Finset.sum_congr rfl fun ν _ => by ring
    have e2 : ∑ ν, (g ν : ℂ) • (gammaTwiddle P ν *ᵥ ψ ν) = 0 := by
      have t1 : ∑ ν, (g ν : ℂ) • (Gamma4Vec ν *ᵥ ψ ν) = 0 := by
        rw [Fin.sum_univ_four, g0, g1, g2, g3, ← hψ.2.2]
        simp only [neg_smul, one_smul]
        abel
      have t2 : ∑ ν, (g ν * P ν) • ψ ν = 0 := by
        funext a
        have := hψ.2.1 a
        rw [← dot_eq] at this
        simp only [Finset.sum_apply, Pi.smul_apply, smul_eq_mul, Pi.zero_apply]
        exact this
      have t3 : ∀ ν, (g ν : ℂ) • (gammaTwiddle P ν *ᵥ ψ ν) =
          (g ν : ℂ) • (Gamma4Vec ν *ᵥ ψ ν) - (1 / dot P P) • (slash P *ᵥ ((g ν * P ν) • ψ ν)) := by
        intro ν
        rw [gammaTwiddle_eq, Matrix.sub_mulVec, Matrix.smul_mulVec, Matrix.mulVec_smul, smul_sub, smul_smul, smul_smul]
        congr 2
        ring
      rw [Finset.sum_congr rfl fun ν _ => t3 ν, Finset.sum_sub_distrib, t1, ← Finset.smul_sum, ← Matrix.mulVec_sum, t2]
      simp
    have e3 : ∑ ν, (g ν : ℂ) • ((1 / 3 : ℂ) • ((F * gammaTwiddle P μ * gammaTwiddle P ν) *ᵥ ψ ν)) =
        (1 / 3 : ℂ) • ((F * gammaTwiddle P μ) *ᵥ ∑ ν, (g ν : ℂ) • (gammaTwiddle P ν *ᵥ ψ ν)) := by
      rw [Matrix.mulVec_sum, Finset.smul_sum]
      exact Finset.sum_congr rfl fun ν _ => by rw [Matrix.mulVec_smul, Matrix.mulVec_mulVec, smul_comm]
    rw [e1, e3, e2]
    simp

/-- Every vertex of a decaying fermion or antifermion of spin one half gives a solution of its Dirac equation, but for the two vertices of
antifermions below. -/
theorem half_vertices_partial (m : ℂ) (P Q : V4 ℂ) (hm : m ≠ 0) (hP : m ^ 2 = minkowski P P) (s : ℂ) (F : M4)
    (hF : (s = 1 ∧ F = spin1h m P) ∨ (s = -1 ∧ F = spin1hb m P)) (V1 V2 : V4 ℂ) (T1 : T4 ℂ) (R1 : Fin 4 → V4 ℂ) (s2 : ℂ) :
    let ok (ψ : V4 ℂ) : Prop := SpinHalf Gamma4Vec s m P ψ
    ok (f_fS_S F V1 s2) ∧ ok (f_fS_P F P Q V1 s2) ∧ ok (f_Vf_S F P V1 V2) ∧ ok (f_Vf_P F P Q V1 V2) ∧ ok (f_Vf_P1 F P Q V1 V2) ∧
      ok (f_Vf_D F P Q V1 V2) ∧ ok (f_Vf_S1 F P V1 V2) ∧ ok (f_Vf_SL F V1 V2) ∧ ok (f_Vf_SR F V1 V2) ∧ ok (f_fS_SL F V1 V2) ∧
      ok (f_fS_SR F V1 V2) ∧ ok (f_fS_P1 F P Q V1 s2) ∧ ok (f_Tf_P F P Q T1 V2) ∧ ok (f_Vf_P2 F P Q V1 V2) ∧
      ok (f_Vf_P3 F P Q V1 V2) ∧ ok (f_rS_D F P Q R1 s2) ∧ ok (f_rS_P F P Q R1 s2) ∧ ok (f_rS_P1 F P Q R1 s2) ∧
      (s = 1 → ok (f_fS_S1 F V1 s2) ∧ ok (f_Vf_D1 F P Q V1 V2)) := by
  intro ok
  have hF' : IsProjector s m P F := hF
  have hP' : m * m = dot P P := by rw [dot_eq, ← hP]; ring
  have base : ∀ ψ, ok (F *ᵥ ψ) := half_state hF' hm hP'
  have mul : ∀ (M : M4) ψ, ok ((F * M) *ᵥ ψ) := half_state_mul hF' hm hP'
  have mul2 : ∀ (M N : M4) ψ, ok ((F * M * N) *ᵥ ψ) := fun M N ψ => by rw [mul_assoc]; exact mul _ _
  have sc : ∀ (ψ : V4 ℂ) c, ok ψ → ok (fun a => ψ a * c) := by
    intro ψ c h
    have := h.smul c
    convert this using 1
    funext a
    simp [mul_comm]
  have sum1 : ∀ (ψ : Fin 4 → V4 ℂ) (v : V4 ℂ), (∀ μ, ok (ψ μ)) → ok (fun a => ∑ μ, g μ * ψ μ a * v μ) := by
    intro ψ v h
    have := SpinHalf.sum (Finset.univ : Finset (Fin 4)) h (fun μ => g μ * v μ)
    convert this using 1
    funext a
    simp only [Finset.sum_apply, Pi.smul_apply, smul_eq_mul]
    exact Finset.sum_congr rfl fun μ _ => by ring
  refine ⟨sc _ _ (base _), ?_, sum1 _ _ fun μ => mul2 _ _ _, sc _ _ (base _), sum1 _ _ fun μ => mul2 _ _ _, sum1 _ _ fun μ => mul2 _ _ _, mul _ _,
    sum1 _ _ fun μ => mul2 _ _ _, sum1 _ _ fun μ => mul2 _ _ _, mul _ _, mul _ _, sc _ _ (mul _ _), ?_, sc _ _ (mul _ _),
    sum1 _ _ fun μ => mul _ _, ?_, sc _ _ (sum1 _ _ fun μ => base _), sc _ _ (sum1 _ _ fun μ => mul _ _), ?_⟩
  · exact mul2 _ _ _
  · exact sum1 (fun ν a => ∑ μ, g μ * ((F * gammaTwiddle P μ) *ᵥ V2) a * imposeSymmetry T1 μ ν) _ fun ν => sum1 _ _ fun μ => mul _ _
  · have e : f_rS_D F P Q R1 s2 = fun a => (∑ μ, g μ * (∑ α, g α * ((F * Gamma 4 * gammaTwiddle P μ) *ᵥ R1 α) a * dWave P Q μ α) * 1) * s2 := by
      funext a
      unfold f_rS_D
      congr 1
      refine Finset.sum_congr rfl fun μ _ => ?_
      rw [mul_one, Finset.mul_sum]
      exact Finset.sum_congr rfl fun α _ => by ring
    rw [e]
    exact sc (fun a => ∑ μ, g μ * (∑ α, g α * ((F * Gamma 4 * gammaTwiddle P μ) *ᵥ R1 α) a * dWave P Q μ α) * 1) _
      (sum1 (fun μ a => ∑ α, g α * ((F * Gamma 4 * gammaTwiddle P μ) *ᵥ R1 α) a * dWave P Q μ α) (fun _ => 1) fun μ => sum1 _ _ fun α => mul2 _ _ _)
  · intro _
    refine ⟨sc _ _ (mul _ _), ?_⟩
    have e : f_Vf_D1 F P Q V1 V2 = fun a => ∑ μ, g μ * ((F * gammaTwiddle P μ) *ᵥ V2) a * (∑ ν, g ν * dWave P Q μ ν * V1 ν) := by
      funext a
      unfold f_Vf_D1
      simp only [Matrix.mulVec, dotProduct, Finset.mul_sum, Finset.sum_mul]
      rw [Finset.sum_comm]
      refine Finset.sum_congr rfl fun μ _ => ?_
      rw [Finset.sum_comm]
      exact (Finset.sum_congr rfl fun c _ => Finset.sum_congr rfl fun ν _ => by ring)
    rw [e]
    exact sum1 _ _ fun μ => mul _ _

/-- Both vertices of a decaying particle of spin three half give a state of spin three half. -/
theorem three_half_vertices (m : ℂ) (P Q : V4 ℂ) (hm : m ≠ 0) (hP : m ^ 2 = minkowski P P) (s : ℂ) (F : M4)
    (hF : (s = 1 ∧ F = spin1h m P) ∨ (s = -1 ∧ F = spin1hb m P)) (V1 : V4 ℂ) (s2 : ℂ) :
    SpinThreeHalf Gamma4Vec s m P (r_fS_P F P Q V1 s2) ∧ SpinThreeHalf Gamma4Vec s m P (r_fS_D F P Q V1 s2) := by
  have hF' : IsProjector s m P F := hF
  have hP' : m * m = dot P P := by rw [dot_eq, ← hP]; ring
  have hPP : dot P P ≠ 0 := by rw [← hP']; exact mul_ne_zero hm hm
  have hL := pWave_transverse P Q hPP
  obtain ⟨F', hF'', hsw, hsw'⟩ := hF'.swap
  have ht := twiddle_transverse P hPP
  have hg := gamma_twiddle_sum P hPP
  have hsF := hF'.slash_mul hm hP'
  constructor
  · unfold r_fS_P
    simp only
    generalize pWave P Q = L at hL
    refine rarita (fun ν => (-1 * L ν) • F + (1 / 3 : ℂ) • (F * gammaTwiddle P ν * slash L)) (fun μ => ?_) ?_ ?_ V1
    · rw [mul_add, mul_smul_comm, mul_smul_comm, ← mul_assoc, ← mul_assoc, hsF, smul_mul_assoc, smul_mul_assoc]
      module
    · simp only [smul_add, Finset.sum_add_distrib]
      have e1 : ∑ μ, (g μ * P μ) • ((-1 * L μ) • F) = 0 := by
        simp only [smul_smul]
        rw [← Finset.sum_smul]
        have e : ∑ μ, g μ * P μ * (-1 * L μ) = -dot P L := by
          unfold dot
          rw [← Finset.sum_neg_distrib]
          exact Finset.sum_congr rfl fun μ _ => by ring
        rw [e, hL, neg_zero, zero_smul]
      have e2 : ∑ μ, (g μ * P μ) • ((1 / 3 : ℂ) • (F * gammaTwiddle P μ * slash L)) =
          (1 / 3 : ℂ) • (F * (∑ μ, (g μ * P μ) • gammaTwiddle P μ) * slash L) := by
        rw [Finset.mul_sum, Finset.sum_mul, Finset.smul_sum]
        exact Finset.sum_congr rfl fun μ _ => by rw [mul_smul_comm, smul_mul_assoc, smul_comm]
      rw [e1, e2, ht]
      simp
    · simp only [mul_add, smul_add, Finset.sum_add_distrib]
      have e1 : ∑ μ, (g μ : ℂ) • (Gamma4Vec μ * ((-1 * L μ) • F)) = -(slash L * F) := by
        unfold slash
        rw [Finset.sum_mul, ← Finset.sum_neg_distrib]
        refine Finset.sum_congr rfl fun μ _ => ?_
        rw [mul_smul_comm, smul_smul, smul_mul_assoc, ← neg_smul]
        congr 1
        ring
      have e2 : ∑ μ, (g μ : ℂ) • (Gamma4Vec μ * ((1 / 3 : ℂ) • (F * gammaTwiddle P μ * slash L))) = slash L * F := by
        have e3 : ∀ μ, (g μ : ℂ) • (Gamma4Vec μ * ((1 / 3 : ℂ) • (F * gammaTwiddle P μ * slash L))) =
            (1 / 3 : ℂ) • (((g μ : ℂ) • (Gamma4Vec μ * gammaTwiddle P μ)) * (F' * slash L)) := by
          intro μ
          rw [twiddle_swap hPP hsw μ, mul_smul_comm, smul_comm, smul_mul_assoc]
          simp only [mul_assoc]
        rw [Finset.sum_congr rfl fun μ _ => e3 μ, ← Finset.smul_sum, ← Finset.sum_mul, hg, smul_mul_assoc, one_mul, smul_smul, hsw' L hL]
        norm_num
      rw [e1, e2]
      abel
  · unfold r_fS_D
    simp only
    generalize pWave P Q = L at hL
    refine rarita (fun μ => (L μ • (F * slash L) - (dot L L / 3) • (F * gammaTwiddle P μ)) * Gamma 4) (fun μ => ?_) ?_ ?_ V1
    · rw [← mul_assoc, mul_sub, mul_smul_comm, mul_smul_comm, ← mul_assoc, ← mul_assoc, hsF, ← smul_mul_assoc (s * m) (_ - _)]
      congr 1
      rw [smul_mul_assoc, smul_mul_assoc, smul_sub, smul_comm, smul_comm (s * m) (dot L L / 3)]
    · have e0 : ∀ μ, (g μ * P μ) • ((L μ • (F * slash L) - (dot L L / 3) • (F * gammaTwiddle P μ)) * Gamma 4) =
          ((g μ * P μ) • (L μ • (F * slash L) - (dot L L / 3) • (F * gammaTwiddle P μ))) * Gamma 4 := fun μ => (smul_mul_assoc _ _ _).symm
      rw [Finset.sum_congr rfl fun μ _ => e0 μ, ← Finset.sum_mul]
      simp only [smul_sub, Finset.sum_sub_distrib]
      have e1 : ∑ μ, (g μ * P μ) • (L μ • (F * slash L)) = 0 := by
        simp only [smul_smul]
        rw [← Finset.sum_smul]
        change dot P L • _ = _
        rw [hL, zero_smul]
      have e2 : ∑ μ, (g μ * P μ) • ((dot L L / 3) • (F * gammaTwiddle P μ)) =
          (dot L L / 3) • (F * (∑ μ, (g μ * P μ) • gammaTwiddle P μ)) := by
        rw [Finset.mul_sum, Finset.smul_sum]
        exact Finset.sum_congr rfl fun μ _ => by rw [mul_smul_comm, smul_comm]
      rw [e1, e2, ht]
      simp
    · have e0 : ∀ μ, (g μ : ℂ) • (Gamma4Vec μ * ((L μ • (F * slash L) - (dot L L / 3) • (F * gammaTwiddle P μ)) * Gamma 4)) =
          (((g μ * L μ) • Gamma4Vec μ) * (F * slash L) - (dot L L / 3) • (((g μ : ℂ) • (Gamma4Vec μ * gammaTwiddle P μ)) * F')) * Gamma 4 := by
        intro μ
        rw [twiddle_swap hPP hsw μ, ← mul_assoc, ← smul_mul_assoc, mul_sub, smul_sub, mul_smul_comm, smul_smul, mul_smul_comm, smul_comm,
          smul_mul_assoc, smul_mul_assoc]
        simp only [mul_assoc]
      rw [Finset.sum_congr rfl fun μ _ => e0 μ, ← Finset.sum_mul, Finset.sum_sub_distrib, ← Finset.sum_mul, ← Finset.smul_sum, ← Finset.sum_mul, hg]
      change (slash L * (F * slash L) - _) * _ = _
      rw [hsw L hL, ← mul_assoc, slash_sq, smul_mul_assoc, smul_mul_assoc, one_mul, smul_smul]
      have : dot L L • F' - (dot L L / 3 * 3) • F' = 0 := by
        rw [← sub_smul]
        have : dot L L - dot L L / 3 * 3 = 0 := by ring
        rw [this, zero_smul]
      rw [this, zero_mul]

/-- The vector vertices with two fermions give a state of spin one, but for the one below. -/
theorem fermion_vector_vertices_partial (P : V4 ℂ) (hP : minkowski P P ≠ 0) (V1 V2 : V4 ℂ) :
    SpinOne P (V_fF_S P V1 V2) ∧ SpinOne P (V_fF_PL P V1 V2) ∧ SpinOne P (V_fF_PR P V1 V2) := by
  rw [← dot_eq] at hP
  refine ⟨?_, ?_, ?_⟩
  · unfold SpinOne
    rw [← dot_eq]
    have hs : ∀ (c : Fin 4 → ℂ) (M : Fin 4 → M4), ∑ μ, c μ * sandwich (bar V2) (M μ) V1 = sandwich (bar V2) (∑ μ, c μ • M μ) V1 := by
      intro c M
      unfold sandwich
      simp only [Fin.sum_univ_four, Matrix.add_apply, Matrix.smul_apply, smul_eq_mul]
      ring
    have h := hs (fun μ => g μ * P μ) (gammaTwiddle P)
    rw [twiddle_transverse P hP] at h
    unfold dot V_fF_S
    rw [h]
    unfold sandwich
    simp
  · unfold SpinOne V_fF_PL
    rw [← dot_eq]
    simp only [spin1_apply]
    exact pWave_transverse P _ hP
  · unfold SpinOne V_fF_PR
    rw [← dot_eq]
    simp only [spin1_apply]
    exact pWave_transverse P _ hP

/-- `F_FS_S1` and `F_VF_D1` use the projector of a fermion for the decay of an antifermion.  For an antifermion at rest that decays to a fermion and
a scalar the result does not obey the Dirac equation of an antifermion; it obeys the one of a fermion. -/
theorem half_vertices_counterexample :
    ∃ (m : ℂ) (P V1 : V4 ℂ) (s2 : ℂ), m ≠ 0 ∧ m ^ 2 = minkowski P P ∧ ¬ SpinHalf Gamma4Vec (-1) m P (F_FS_S1 m P V1 s2) ∧
      ¬ SpinHalf Gamma4Vec (-1) m P (F_VF_D1 m P ![0, 0, 1, 1] ![0, 0, 1, 0] V1) := by
  have hP : (1 : ℂ) * 1 = dot (![0, 0, 0, 1] : V4 ℂ) ![0, 0, 0, 1] := by
    rw [dot_eq]; simp [minkowski]
  have key : ∀ ψ : V4 ℂ, ψ ≠ 0 → SpinHalf Gamma4Vec 1 1 ![0, 0, 0, 1] ψ → ¬ SpinHalf Gamma4Vec (-1) 1 ![0, 0, 0, 1] ψ := by
    intro ψ h0 h1 h2
    unfold SpinHalf at h1 h2
    rw [h1] at h2
    apply h0
    funext a
    have := congrFun h2 a
    simp at this
    have h3 : (2 : ℂ) * ψ a = 0 := by linear_combination this
    simpa using h3
  have hsl : slash (![0, 0, 0, 1] : V4 ℂ) = Gamma 3 := by
    rw [slash_eq]
    unfold dirac
    rw [Gamma4Vec_eq, Gamma4Vec_eq, Gamma4Vec_eq, Gamma4Vec_eq]
    simp
  refine ⟨1, ![0, 0, 0, 1], ![0, 0, 1, 0], 1, one_ne_zero, by simp [minkowski], key _ ?_ ?_, key _ ?_ ?_⟩
  · intro h
    have h0 := congrFun h 0
    unfold F_FS_S1 f_fS_S1 spin1h at h0
    rw [hsl] at h0
    simp [Gamma, Matrix.mulVec, dotProduct, Fin.sum_univ_four, Matrix.mul_apply] at h0
  · exact (half_vertices_partial 1 ![0, 0, 0, 1] ![0, 0, 0, 1] one_ne_zero (by simp [minkowski]) 1 _ (.inl ⟨rfl, rfl⟩) ![0, 0, 1, 0] 0 0 0 1).2.2.2.2.2.2.2.2.2.2.2.2.2.2.2.2.2.2 rfl |>.1
  · intro h
    have h0 := congrFun h 0
    have hD := (orbital_rest_frame (1 : ℂ) 1 ![0, 0, 1] one_ne_zero)
    simp only at hD
    obtain ⟨-, -, hD, hD3⟩ := hD
    have hQ : (![(![0, 0, 1] : Fin 3 → ℂ) 0, (![0, 0, 1] : Fin 3 → ℂ) 1, (![0, 0, 1] : Fin 3 → ℂ) 2, 1] : V4 ℂ) = ![0, 0, 1, 1] := by
      funext i
      fin_cases i <;> rfl
    rw [hQ] at hD hD3
    have d0 := hD 0 2
    have d1 := hD 1 2
    have d2 := hD 2 2
    have d3 := (hD3 2).2
    simp only [Fin.isValue, Fin.castSucc_zero] at d0
    have c1 : (1 : Fin 3).castSucc = (1 : Fin 4) := rfl
    have c2 : (2 : Fin 3).castSucc = (2 : Fin 4) := rfl
    rw [c2] at d0 d1 d2
    rw [c1] at d1
    have hv : ∀ μ : Fin 4, ∑ ν, g ν * dWave ![0, 0, 0, 1] ![0, 0, 1, 1] μ ν * (![0, 0, 1, 0] : V4 ℂ) ν =
        -dWave ![0, 0, 0, 1] ![0, 0, 1, 1] μ 2 := by
      intro μ
      rw [Fin.sum_univ_four, g0, g1, g2, g3]
      simp
    have e : F_VF_D1 1 ![0, 0, 0, 1] ![0, 0, 1, 1] ![0, 0, 1, 0] ![0, 0, 1, 0] =
        (spin1h 1 ![0, 0, 0, 1] * slash (pWave ![0, 0, 0, 1] (fun μ => -dWave ![0, 0, 0, 1] ![0, 0, 1, 1] μ 2))) *ᵥ ![0, 0, 1, 0] := by
      rw [← twiddle_sum]
      funext a
      unfold F_VF_D1 f_Vf_D1
      simp only [hv]
      rw [Finset.mul_sum]
      simp only [Matrix.mulVec, dotProduct, Matrix.sum_apply, mul_smul_comm, Matrix.smul_apply, smul_eq_mul]
      refine Finset.sum_congr rfl fun c _ => ?_
      congr 1
      exact Finset.sum_congr rfl fun μ _ => by ring
    have hpw : pWave (![0, 0, 0, 1] : V4 ℂ) (fun μ => -dWave ![0, 0, 0, 1] ![0, 0, 1, 1] μ 2) = ![0, 0, -2 / 3, 0] := by
      have ht : dot (![0, 0, 0, 1] : V4 ℂ) (fun μ => -dWave ![0, 0, 0, 1] ![0, 0, 1, 1] μ 2) = 0 := by
        rw [dot_eq]
        unfold minkowski
        beta_reduce
        rw [d3]
        simp
      rw [pWave_fix _ _ ht]
      funext μ
      fin_cases μ
      · change -dWave _ _ 0 2 = _
        rw [d0]; simp
      · change -dWave _ _ 1 2 = _
        rw [d1]; simp
      · change -dWave _ _ 2 2 = _
        have q0 : (![0, 0, 1] : Fin 3 → ℂ) 0 = 0 := rfl
        have q1 : (![0, 0, 1] : Fin 3 → ℂ) 1 = 0 := rfl
        have q2 : (![0, 0, 1] : Fin 3 → ℂ) 2 = 1 := rfl
        rw [d2, q0, q1, q2]; norm_num
      · change -dWave _ _ 3 2 = _
        rw [d3]; simp
    have hs2 : slash (![0, 0, -2 / 3, 0] : V4 ℂ) = (2 / 3 : ℂ) • Gamma 2 := by
      rw [slash_eq]
      unfold dirac
      rw [Gamma4Vec_eq, Gamma4Vec_eq, Gamma4Vec_eq, Gamma4Vec_eq]
      simp
      rw [← neg_smul]
      congr 1
      norm_num
    rw [e, hpw, hs2] at h0
    unfold spin1h at h0
    rw [hsl] at h0
    simp [Gamma, Matrix.mulVec, dotProduct, Fin.sum_univ_four, Matrix.mul_apply] at h0
  · exact (half_vertices_partial 1 ![0, 0, 0, 1] ![0, 0, 1, 1] one_ne_zero (by simp [minkowski]) 1 _ (.inl ⟨rfl, rfl⟩) ![0, 0, 1, 0] ![0, 0, 1, 0] 0 0 1).2.2.2.2.2.2.2.2.2.2.2.2.2.2.2.2.2.2 rfl |>.2

/-- `V_fF_S1` does not take off the component along the momentum: the vector it gives for a particle at rest has an energy component. -/
theorem fermion_vector_counterexample :
    ∃ (P V1 V2 : V4 ℂ), minkowski P P ≠ 0 ∧ ¬ SpinOne P (V_fF_S1 V1 V2) := by
  refine ⟨![0, 0, 0, 1], ![1, 0, 0, 0], ![0, 0, 1, 0], by simp [minkowski], ?_⟩
  intro h
  unfold SpinOne minkowski V_fF_S1 sandwich bar at h
  simp [Gamma4Vec_eq, Gamma, Fin.sum_univ_four, Matrix.mul_apply] at h

/-- A moving fermion with mass four meets the hypotheses, and its projector is not zero. -/
example : (4 : ℂ) ≠ 0 ∧ (4 : ℂ) ^ 2 = minkowski ![3, 0, 0, 5] ![3, 0, 0, 5] ∧ spin1h 4 ![3, 0, 0, 5] *ᵥ ![1, 0, 0, 0] ≠ 0 := by
  refine ⟨by norm_num, by simp [minkowski]; norm_num, fun h => ?_⟩
  have h0 := congrFun h 0
  unfold spin1h at h0
  rw [slash_eq] at h0
  unfold dirac at h0
  rw [Gamma4Vec_eq, Gamma4Vec_eq, Gamma4Vec_eq, Gamma4Vec_eq] at h0
  simp [Gamma, Matrix.mulVec, dotProduct, Fin.sum_univ_four] at h0
  norm_num at h0

end AmpGen.Vertex
