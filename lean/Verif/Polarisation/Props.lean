import Verif.Polarisation.LemmasSpinor
/-
The properties of the spin states of external particles.
-/
namespace AmpGen.Polarisation
open Complex Spec
open AmpGen.Transform (V4 M4 minkowski slash gamma)

/-! ### C122 and C123: particles of spin one -/

/-- C122: in the basis of Dirac, the states of a massive particle of spin one are a basis of the states of spin one, for every momentum, and at rest they are the
states of definite spin along `z`. -/
theorem vector_dirac (pr : Properties) (p : Mom) (hs : pr.twoSpin = 2) (h : OnShell pr.mass p) :
    ∃ ε : ℤ → V4, (∀ l, l = 1 ∨ l = 0 ∨ l = -1 → externalSpinTensor .dirac pr p l = some (.four (ε l))) ∧ SpinOne pr.mass p ε ∧
      (p 0 = 0 → p 1 = 0 → p 2 = 0 → ε 1 = ((1 / √2 : ℝ) : ℂ) • ![-1, -I, 0, 0] ∧ ε 0 = ![0, 0, 1, 0] ∧ ε (-1) = ((1 / √2 : ℝ) : ℂ) • ![1, -I, 0, 0]) := by
  refine ⟨_, fun l hl => ?_, (boost_triad h).spinOne, ?_⟩
  · unfold externalSpinTensor
    rw [hs, if_neg (by norm_num), if_pos rfl]
    simp only [diracVector_eq h l hl, Option.map_some]
  · intro h0 h1 h2
    refine ⟨?_, ?_, ?_⟩ <;> funext i <;> fin_cases i <;> simp [circular, boostX, boostY, boostZ, h0, h1, h2]

/-- C123: in the basis of Weyl, the same holds for momenta away from the axis, along the axis and at rest, and the states have definite spin along the momentum. -/
theorem vector_weyl_partial (pr : Properties) (p : Mom) (hs : pr.twoSpin = 2) (h : OnShell pr.mass p)
    (hp : p 0 * p 0 + p 1 * p 1 > 1e-6 ∨ (p 0 = 0 ∧ p 1 = 0 ∧ (1e-6 < p 2 ∨ p 2 = 0))) :
    ∃ ε : ℤ → V4, (∀ l, l = 1 ∨ l = 0 ∨ l = -1 → externalSpinTensor .weyl pr p l = some (.four (ε l))) ∧ SpinOne pr.mass p ε ∧
      ∀ l : ℤ, l = 1 ∨ l = 0 ∨ l = -1 → spinAlong p (ε l) = ((l * √(p 0 ^ 2 + p 1 ^ 2 + p 2 ^ 2) : ℝ) : ℂ) • ε l := by
  have hext : ∀ ε : ℤ → V4, (∀ l, l = 1 ∨ l = 0 ∨ l = -1 → weylVector pr.mass p l = some (ε l)) →
      ∀ l, l = 1 ∨ l = 0 ∨ l = -1 → externalSpinTensor .weyl pr p l = some (.four (ε l)) := by
    intro ε hε l hl
    unfold externalSpinTensor
    rw [hs, if_neg (by norm_num), if_pos rfl]
    simp only [hε l hl, Option.map_some]
  have hP : √(p 0 ^ 2 + p 1 ^ 2 + p 2 ^ 2) = absP p := by unfold absP; congr 1; ring
  rw [hP]
  have hP2 := absP_sq p
  rcases hp with ht | ⟨h0, h1, h2 | h2⟩
  · have hT : p 0 * p 0 + p 1 * p 1 ≠ 0 := by
      have : (0 : ℝ) < 1e-6 := by norm_num
      linarith
    have hP0 : absP p ≠ 0 := by
      intro h0
      rw [h0] at hP2
      nlinarith [mul_self_nonneg (p 2), mul_self_nonneg (p 0), mul_self_nonneg (p 1), show (0 : ℝ) < 1e-6 by norm_num]
    have hf : (absP p - p 2) / (p 0 * p 0 + p 1 * p 1) * (p 0 ^ 2 + p 1 ^ 2) = absP p - p 2 := by
      rw [show p 0 ^ 2 + p 1 ^ 2 = p 0 * p 0 + p 1 * p 1 by ring, div_mul_cancel₀ _ hT]
    have hf2 : (absP p - p 2) / (p 0 * p 0 + p 1 * p 1) * (absP p + p 2) = 1 := by
      rw [div_mul_eq_mul_div, div_eq_one_iff_eq hT]
      linear_combination hP2
    exact ⟨_, hext _ fun l hl => weylVector_eq h ht l hl, (turn_triad h hP2 hP0 hf hf2).spinOne, fun l hl => turn_helicity hP0 hf hf2 l hl⟩
  · have hPz : absP p = p 2 := by
      have e : (absP p - p 2) * (absP p + p 2) = 0 := by
        rw [h0, h1] at hP2
        linear_combination hP2
      have hpos : (0 : ℝ) < 1e-6 := by norm_num
      rcases mul_eq_zero.1 e with e | e
      · linarith
      · linarith [absP_nonneg p]
    have hP0 : absP p ≠ 0 := by
      have hpos : (0 : ℝ) < 1e-6 := by norm_num
      linarith
    have hf : 1 / (2 * absP p) * (p 0 ^ 2 + p 1 ^ 2) = absP p - p 2 := by rw [h0, h1, hPz]; simp
    have hf2 : 1 / (2 * absP p) * (absP p + p 2) = 1 := by
      rw [← hPz]
      field_simp
      norm_num
    exact ⟨_, hext _ fun l hl => weylVector_axis h h0 h1 h2 l hl, (turn_triad h hP2 hP0 hf hf2).spinOne, fun l hl => turn_helicity hP0 hf hf2 l hl⟩
  · refine ⟨_, hext _ fun l hl => weylVector_rest h h0 h1 h2 l hl, (rest_triad h h0 h1 h2).spinOne, fun l hl => ?_⟩
    have : absP p = 0 := by unfold absP; rw [h0, h1, h2]; simp
    rw [this, mul_zero]
    funext i
    fin_cases i <;> simp [spinAlong, h0, h1, h2]

/-- A momentum that fulfils the hypotheses. -/
example : OnShell 2 ![1, 2, 4, 5] ∧ (![1, 2, 4, 5] : Mom) 0 * (![1, 2, 4, 5] : Mom) 0 + (![1, 2, 4, 5] : Mom) 1 * (![1, 2, 4, 5] : Mom) 1 > 1e-6 := by
  refine ⟨⟨by norm_num, by simp, by simp; norm_num⟩, by simp; norm_num⟩

/-- C123, why it is partial: for a particle that moves along `-z`, the state of polarisation one is the one of helicity minus one. -/
theorem vector_weyl_backward_counterexample (pr : Properties) (p : Mom) (hs : pr.twoSpin = 2) (h0 : p 0 = 0) (h1 : p 1 = 0) (h2 : p 2 < -1e-6) :
    ∃ ε : V4, externalSpinTensor .weyl pr p 1 = some (.four ε) ∧ ε ≠ 0 ∧ spinAlong p ε = ((-√(p 0 ^ 2 + p 1 ^ 2 + p 2 ^ 2) : ℝ) : ℂ) • ε := by
  have hneg : p 2 < 0 := by
    have : (0 : ℝ) < 1e-6 := by norm_num
    linarith
  have hP' : absP p = -p 2 := by
    unfold absP
    rw [h0, h1, zero_mul, zero_add, zero_add, show p 2 * p 2 = -p 2 * -p 2 by ring, Real.sqrt_mul_self (by linarith)]
  have hq : √(p 0 ^ 2 + p 1 ^ 2 + p 2 ^ 2) = -p 2 := by rw [← hP']; unfold absP; congr 1; ring
  have hP : absP p > 1e-6 := by rw [hP']; linarith
  have ht : ¬ p 0 * p 0 + p 1 * p 1 > 1e-6 := by rw [h0, h1]; norm_num
  have hc : p 2 / absP p = -1 := by
    rw [hP']
    have : p 2 ≠ 0 := hneg.ne
    field_simp
  refine ⟨((1 / √2 : ℝ) : ℂ) • ![1, I, 0, 0], ?_, ?_, ?_⟩
  · unfold externalSpinTensor
    rw [hs, if_neg (by norm_num), if_pos rfl]
    unfold weylVector
    simp only [if_neg ht, if_pos hP, hc, if_true]
    simp [zed, h0, h1]
  · intro he
    have := congrFun he 0
    simp at this
  · rw [hq]
    have hI : I * I = -1 := I_mul_I
    funext i
    fin_cases i <;> simp [spinAlong, h0, h1]
    · linear_combination (-(p 2 * (√2 : ℂ)⁻¹)) * hI
    · ring

/-- C123, why it is partial: the state of polarisation one of a slow particle that moves in the direction of `x` has length one half. -/
theorem vector_weyl_slow_counterexample : ∃ (p : Mom) (ε : V4), OnShell 1 p ∧ p 0 = 9e-4 ∧ p 1 = 0 ∧ p 2 = 0 ∧
    externalSpinTensor .weyl ⟨2, 113, 1⟩ p 1 = some (.four ε) ∧ minkowski (cc ε) ε = -(1 / 2) := by
  obtain ⟨E, hE, hE2⟩ : ∃ E : ℝ, 0 < E ∧ E ^ 2 = 1 + 81e-8 := ⟨√(1 + 81e-8), Real.sqrt_pos.2 (by norm_num), Real.sq_sqrt (by norm_num)⟩
  have hP : absP ![9e-4, 0, 0, E] = 9e-4 := by
    unfold absP
    simp
    exact Real.sqrt_mul_self (by norm_num)
  refine ⟨![9e-4, 0, 0, E], ((1 / √2 : ℝ) : ℂ) • ![0, 0, 1, 0], ⟨by norm_num, by simpa using hE, ?_⟩, by simp, by simp, by simp, ?_, ?_⟩
  · simp [hE2]
    norm_num
  · unfold externalSpinTensor
    rw [if_neg (by norm_num), if_pos rfl]
    unfold weylVector
    simp only [hP, if_true]
    have t : ¬ (![9e-4, 0, 0, E] : Mom) 0 * (![9e-4, 0, 0, E] : Mom) 0 + (![9e-4, 0, 0, E] : Mom) 1 * (![9e-4, 0, 0, E] : Mom) 1 > 1e-6 := by simp; norm_num
    have t2 : (9e-4 : ℝ) > 1e-6 := by norm_num
    simp only [if_neg t, if_pos t2, Option.map_some]
    congr 3
    funext i
    fin_cases i <;> simp [zed]
    norm_num
  · have := half_sq
    simp [minkowski, cc, conj_ofReal] at this ⊢
    linear_combination this

/-! ### C124 and C125: fermions -/

/-- The sign of a fermion and of an antifermion. -/
noncomputable def fermionSign (id : ℤ) : ℝ := if 0 < id then 1 else -1

theorem axis_basis : Basis (fun l => if l = 1 then ![1, 0] else ![0, 1]) := by
  refine ⟨?_, ?_⟩
  · rintro l l' (rfl | rfl) (rfl | rfl) <;> simp
  · intro i j
    fin_cases i <;> fin_cases j <;> simp

/-- C124: in the basis of Dirac, the states of a massive fermion or antifermion are a basis of the solutions of Dirac's equation for its momentum, and at rest they are
the states of definite spin along `z`. -/
theorem spinor_dirac (pr : Properties) (p : Mom) (hs : pr.twoSpin = 1) (hid : pr.pdgID ≠ 0) (h : OnShell pr.mass p) :
    ∃ u : ℤ → V4, (∀ l, l = 1 ∨ l = -1 → externalSpinTensor .dirac pr p l = some (.four (u l))) ∧ SpinHalf (fermionSign pr.pdgID) pr.mass p u ∧
      (p 0 = 0 → p 1 = 0 → p 2 = 0 → if 0 < pr.pdgID then u 1 = ![1, 0, 0, 0] ∧ u (-1) = ![0, 1, 0, 0] else u 1 = ![0, 0, 1, 0] ∧ u (-1) = ![0, 0, 0, 1]) := by
  have hm : ¬ (pr.mass = 0 ∨ p 3 + pr.mass = 0) := by
    rintro (h0 | h0)
    · exact h.1.ne' h0
    · linarith [h.1, h.2.1]
  have hN : p 0 = 0 → p 1 = 0 → p 2 = 0 → spinorNorm pr.mass p = 1 := by
    intro h0 h1 h2
    have hE : p 3 = pr.mass := by
      have := h.2.2
      rw [h0, h1, h2] at this
      have h3 : (p 3 - pr.mass) * (p 3 + pr.mass) = 0 := by linear_combination this
      rcases mul_eq_zero.1 h3 with h4 | h4
      · linarith
      · linarith [h.1, h.2.1]
    unfold spinorNorm
    have hm0 : pr.mass ≠ 0 := h.1.ne'
    rw [hE, show (pr.mass + pr.mass) / (2 * pr.mass) = 1 by field_simp; ring]
    simp
  rcases lt_or_gt_of_ne hid with hneg | hpos
  · have hn : ¬ 0 < pr.pdgID := by omega
    refine ⟨_, ?_, by rw [fermionSign, if_neg hn]; exact vSpinor_basis h axis_basis, ?_⟩
    · intro l hl
      unfold externalSpinTensor
      rw [hs, if_neg (by norm_num), if_neg (by norm_num), if_pos rfl]
      unfold diracSpinor
      rw [if_neg hm]
      rcases hl with rfl | rfl <;> simp [hn, hneg, vSpinor]
    · intro h0 h1 h2
      rw [if_neg hn]
      constructor <;> funext i <;> fin_cases i <;> simp [vSpinor, hN h0 h1 h2, zed, zedb, h0, h1, h2]
  · refine ⟨_, ?_, by rw [fermionSign, if_pos hpos]; exact uSpinor_basis h axis_basis, ?_⟩
    · intro l hl
      unfold externalSpinTensor
      rw [hs, if_neg (by norm_num), if_neg (by norm_num), if_pos rfl]
      unfold diracSpinor
      rw [if_neg hm]
      rcases hl with rfl | rfl <;> simp [hpos, uSpinor]
    · intro h0 h1 h2
      rw [if_pos hpos]
      constructor <;> funext i <;> fin_cases i <;> simp [uSpinor, hN h0 h1 h2, zed, zedb, h0, h1, h2]

/-- The two-component spinors are a basis, and have definite spin along the momentum. -/
theorem xi_basis (p : Mom) (hp : 1e-6 ≤ absP p + p 2 ∨ absP p = 0) (c : ℂ) (hc : (starRingEnd ℂ) c * c = 1) :
    Basis (fun l => c • xi p (if l = 1 then 0 else 1)) ∧
    ∀ l : ℤ, l = 1 ∨ l = -1 → p 2 * xi p (if l = 1 then 0 else 1) 0 + zedb p * xi p (if l = 1 then 0 else 1) 1 = (absP p * l : ℂ) * xi p (if l = 1 then 0 else 1) 0 ∧
      zed p * xi p (if l = 1 then 0 else 1) 0 - p 2 * xi p (if l = 1 then 0 else 1) 1 = (absP p * l : ℂ) * xi p (if l = 1 then 0 else 1) 1 := by
  have hP2 := absP_sq p
  rcases hp with hp | hp
  · have hpos : (0 : ℝ) < 1e-6 := by norm_num
    have hn : ¬ |absP p + p 2| < 1e-6 := by
      rw [abs_of_nonneg (by linarith)]
      linarith
    have hP0 : 0 < absP p := by
      rcases (absP_nonneg p).lt_or_eq with h | h
      · exact h
      · rw [← h] at hP2 hp
        have : p 2 = 0 := by nlinarith [sq_nonneg (p 0), sq_nonneg (p 1), sq_nonneg (p 2)]
        rw [this] at hp
        norm_num at hp
    have hq : 0 < 2 * absP p * (absP p + p 2) := by
      have : 0 < absP p + p 2 := by linarith
      positivity
    have x0 : xi p 0 = ![((1 / √(2 * absP p * (absP p + p 2)) : ℝ) : ℂ) * (absP p + p 2), ((1 / √(2 * absP p * (absP p + p 2)) : ℝ) : ℂ) * zed p] := by
      unfold xi; rw [if_neg hn, if_pos rfl]; rfl
    have x1 : xi p 1 = ![((1 / √(2 * absP p * (absP p + p 2)) : ℝ) : ℂ) * -zedb p, ((1 / √(2 * absP p * (absP p + p 2)) : ℝ) : ℂ) * (absP p + p 2)] := by
      unfold xi zedb; rw [if_neg hn, if_neg (by decide), neg_sub, sub_eq_neg_add, add_comm]
    have hnn : ((1 / √(2 * absP p * (absP p + p 2)) : ℝ) : ℂ) * ((1 / √(2 * absP p * (absP p + p 2)) : ℝ) : ℂ) * (2 * absP p * (absP p + p 2)) = 1 := by
      have : (1 / √(2 * absP p * (absP p + p 2))) * (1 / √(2 * absP p * (absP p + p 2))) * (2 * absP p * (absP p + p 2)) = 1 := by
        rw [div_mul_div_comm, Real.mul_self_sqrt hq.le]
        field_simp
      exact_mod_cast congrArg (fun x : ℝ => (x : ℂ)) this
    have cn : (starRingEnd ℂ) ((1 / √(2 * absP p * (absP p + p 2)) : ℝ) : ℂ) = ((1 / √(2 * absP p * (absP p + p 2)) : ℝ) : ℂ) := conj_ofReal _
    generalize ((1 / √(2 * absP p * (absP p + p 2)) : ℝ) : ℂ) = n at *
    have cz := zed_conj p
    have czb := zedb_conj p
    have hzz : zed p * zedb p = absP p ^ 2 - p 2 ^ 2 := by
      have : (absP p : ℂ) ^ 2 = p 0 ^ 2 + p 1 ^ 2 + p 2 ^ 2 := by exact_mod_cast congrArg (fun x : ℝ => (x : ℂ)) hP2
      rw [this]
      unfold zed zedb
      linear_combination (-(p 1 : ℂ) ^ 2) * I_mul_I
    generalize zed p = z at *
    generalize zedb p = zb at *
    refine ⟨⟨?_, ?_⟩, ?_⟩
    · rintro l l' (rfl | rfl) (rfl | rfl) <;> simp [x0, x1, cn, cz, czb, conj_ofReal]
      · linear_combination hnn + n * n * (2 * absP p * (absP p + p 2)) * (hc - 1 * 0) * 1 + (starRingEnd ℂ) c * c * n * n * hzz
      · ring
      · ring
      · linear_combination hnn + n * n * (2 * absP p * (absP p + p 2)) * hc + (starRingEnd ℂ) c * c * n * n * hzz
    · intro i j
      fin_cases i <;> fin_cases j <;> simp [x0, x1, cn, cz, czb, conj_ofReal]
      · linear_combination hnn + n * n * (2 * absP p * (absP p + p 2)) * hc + (starRingEnd ℂ) c * c * n * n * hzz
      · ring
      · ring
      · linear_combination hnn + n * n * (2 * absP p * (absP p + p 2)) * hc + (starRingEnd ℂ) c * c * n * n * hzz
    · rintro l (rfl | rfl) <;> simp [x0, x1]
      · exact ⟨by linear_combination n * hzz, by ring⟩
      · exact ⟨by ring, by linear_combination (-n) * hzz⟩
  · have h0 : p 0 = 0 := by rw [hp] at hP2; nlinarith [sq_nonneg (p 0), sq_nonneg (p 1), sq_nonneg (p 2)]
    have h1 : p 1 = 0 := by rw [hp] at hP2; nlinarith [sq_nonneg (p 0), sq_nonneg (p 1), sq_nonneg (p 2)]
    have h2 : p 2 = 0 := by rw [hp] at hP2; nlinarith [sq_nonneg (p 0), sq_nonneg (p 1), sq_nonneg (p 2)]
    have ha : |absP p + p 2| < 1e-6 := by rw [hp, h2]; norm_num
    have x0 : xi p 0 = ![1, 0] := by unfold xi; rw [if_pos ha, if_pos rfl]
    have x1 : xi p 1 = ![0, 1] := by unfold xi; rw [if_pos ha, if_neg (by decide)]
    refine ⟨⟨?_, ?_⟩, ?_⟩
    · rintro l l' (rfl | rfl) (rfl | rfl) <;> simp [x0, x1, hc]
    · intro i j
      fin_cases i <;> fin_cases j <;> simp [x0, x1]
      · rw [mul_comm]; exact hc
      · rw [mul_comm]; exact hc
    · rintro l (rfl | rfl) <;> simp [x0, x1, hp, h0, h1, h2, zed, zedb]

/-- C125: in the basis of Weyl, the same holds for momenta that are at rest or not opposite to `z`, and the states have definite spin along the momentum. -/
theorem spinor_weyl_partial (pr : Properties) (p : Mom) (hs : pr.twoSpin = 1) (hid : pr.pdgID ≠ 0) (h : OnShell pr.mass p)
    (hp : 1e-6 ≤ √(p 0 ^ 2 + p 1 ^ 2 + p 2 ^ 2) + p 2 ∨ (p 0 = 0 ∧ p 1 = 0 ∧ p 2 = 0)) :
    ∃ u : ℤ → V4, (∀ l, l = 1 ∨ l = -1 → externalSpinTensor .weyl pr p l = some (.four (u l))) ∧ SpinHalf (fermionSign pr.pdgID) pr.mass p u ∧
      ∀ l : ℤ, l = 1 ∨ l = -1 → spinorAlong p (u l) = ((l * √(p 0 ^ 2 + p 1 ^ 2 + p 2 ^ 2) : ℝ) : ℂ) • u l := by
  have hP : √(p 0 ^ 2 + p 1 ^ 2 + p 2 ^ 2) = absP p := by unfold absP; congr 1; ring
  rw [hP] at hp ⊢
  have hp' : 1e-6 ≤ absP p + p 2 ∨ absP p = 0 := by
    rcases hp with hp | ⟨h0, h1, h2⟩
    · exact .inl hp
    · right; unfold absP; rw [h0, h1, h2]; simp
  have hm : ¬ (pr.mass = 0 ∨ p 3 + pr.mass = 0) := by
    rintro (h0 | h0)
    · exact h.1.ne' h0
    · linarith [h.1, h.2.1]
  rcases lt_or_gt_of_ne hid with hneg | hpos
  · have hn : ¬ 0 < pr.pdgID := by omega
    obtain ⟨hb, hx⟩ := xi_basis p hp' I (by simp)
    refine ⟨_, ?_, by rw [fermionSign, if_neg hn]; exact vSpinor_basis h hb, ?_⟩
    · intro l hl
      unfold externalSpinTensor
      rw [hs, if_neg (by norm_num), if_neg (by norm_num), if_pos rfl]
      simp only []
      unfold weylSpinor
      rw [if_neg hm, if_neg hn, if_pos hneg]
      obtain ⟨y0, y1⟩ := hx l hl
      simp only [Option.map_some, vSpinor]
      generalize xi p (if l = 1 then 0 else 1) = x at *
      congr 2
      funext i
      fin_cases i <;> simp
      · linear_combination (-(spinorNorm pr.mass p * I / (p 3 + pr.mass))) * y0
      · linear_combination (-(spinorNorm pr.mass p * I / (p 3 + pr.mass))) * y1
      · ring
      · ring
    · intro l hl
      obtain ⟨y0, y1⟩ := hx l hl
      simp only [vSpinor]
      generalize xi p (if l = 1 then 0 else 1) = x at *
      have hz : (p 0 : ℂ) + I * p 1 = zed p := rfl
      have hzb : (p 0 : ℂ) - I * p 1 = zedb p := rfl
      unfold spinorAlong
      rw [hz, hzb]
      funext i
      fin_cases i <;> simp
      · linear_combination spinorNorm pr.mass p * I / (p 3 + pr.mass) * (p 2 * y0 + zedb p * y1)
      · linear_combination spinorNorm pr.mass p * I / (p 3 + pr.mass) * (zed p * y0 - p 2 * y1)
      · linear_combination spinorNorm pr.mass p * I * y0
      · linear_combination spinorNorm pr.mass p * I * y1
  · obtain ⟨hb, hx⟩ := xi_basis p hp' 1 (by simp)
    refine ⟨_, ?_, by rw [fermionSign, if_pos hpos]; exact uSpinor_basis h hb, ?_⟩
    · intro l hl
      unfold externalSpinTensor
      rw [hs, if_neg (by norm_num), if_neg (by norm_num), if_pos rfl]
      simp only []
      unfold weylSpinor
      rw [if_neg hm, if_pos hpos]
      obtain ⟨y0, y1⟩ := hx l hl
      simp only [Option.map_some, uSpinor, one_smul]
      generalize xi p (if l = 1 then 0 else 1) = x at *
      congr 2
      funext i
      fin_cases i <;> simp
      · left; linear_combination (-(1 / ((p 3 : ℂ) + pr.mass))) * y0
      · left; linear_combination (-(1 / ((p 3 : ℂ) + pr.mass))) * y1
    · intro l hl
      obtain ⟨y0, y1⟩ := hx l hl
      simp only [uSpinor, one_smul]
      generalize xi p (if l = 1 then 0 else 1) = x at *
      have hz : (p 0 : ℂ) + I * p 1 = zed p := rfl
      have hzb : (p 0 : ℂ) - I * p 1 = zedb p := rfl
      unfold spinorAlong
      rw [hz, hzb]
      funext i
      fin_cases i <;> simp
      · linear_combination spinorNorm pr.mass p * y0
      · linear_combination spinorNorm pr.mass p * y1
      · linear_combination spinorNorm pr.mass p / (p 3 + pr.mass) * (p 2 * y0 + zedb p * y1)
      · linear_combination spinorNorm pr.mass p / (p 3 + pr.mass) * (zed p * y0 - p 2 * y1)

/-- A momentum that fulfils the hypothesis. -/
example : 1e-6 ≤ √((![1, 2, 4, 5] : Mom) 0 ^ 2 + (![1, 2, 4, 5] : Mom) 1 ^ 2 + (![1, 2, 4, 5] : Mom) 2 ^ 2) + (![1, 2, 4, 5] : Mom) 2 := by
  have h := Real.sqrt_nonneg ((![1, 2, 4, 5] : Mom) 0 ^ 2 + (![1, 2, 4, 5] : Mom) 1 ^ 2 + (![1, 2, 4, 5] : Mom) 2 ^ 2)
  have h2 : (![1, 2, 4, 5] : Mom) 2 = 4 := by simp
  rw [h2] at h ⊢
  exact le_trans (by norm_num : (1e-6 : ℝ) ≤ 0 + 4) (add_le_add_left h _)

/-- C125, why it is partial: the state of polarisation one of a fermion that moves along `-z` does not solve Dirac's equation. -/
theorem spinor_weyl_backward_counterexample (pr : Properties) (p : Mom) (hs : pr.twoSpin = 1) (hid : 0 < pr.pdgID) (h : OnShell pr.mass p)
    (h0 : p 0 = 0) (h1 : p 1 = 0) (h2 : p 2 < 0) :
    ∃ u : V4, externalSpinTensor .weyl pr p 1 = some (.four u) ∧ (slash (cx p)).mulVec u ≠ (pr.mass : ℂ) • u := by
  have hm : ¬ (pr.mass = 0 ∨ p 3 + pr.mass = 0) := by
    rintro (h0 | h0)
    · exact h.1.ne' h0
    · linarith [h.1, h.2.1]
  have hP' : absP p = -p 2 := by
    unfold absP
    rw [h0, h1, zero_mul, zero_add, zero_add, show p 2 * p 2 = -p 2 * -p 2 by ring, Real.sqrt_mul_self (by linarith)]
  have ha : |absP p + p 2| < 1e-6 := by rw [hP', neg_add_cancel, abs_zero]; norm_num
  have x0 : xi p 0 = ![1, 0] := by unfold xi; rw [if_pos ha, if_pos rfl]
  refine ⟨spinorNorm pr.mass p • ![1, 0, ((-p 2 : ℝ) : ℂ) / (p 3 + pr.mass), 0], ?_, ?_⟩
  · unfold externalSpinTensor
    rw [hs, if_neg (by norm_num), if_neg (by norm_num), if_pos rfl]
    simp only []
    unfold weylSpinor
    rw [if_neg hm, if_pos hid]
    simp [x0, hP']
  · intro he
    rw [slash_apply] at he
    have e0 := congrFun he 0
    have hN : spinorNorm pr.mass p ≠ 0 := by
      unfold spinorNorm
      have : 0 < (p 3 + pr.mass) / (2 * pr.mass) := by
        have := h.1
        have := h.2.1
        positivity
      exact_mod_cast (Real.sqrt_pos.2 this).ne'
    have hEm : ((p 3 : ℂ) + pr.mass) ≠ 0 := by
      have : p 3 + pr.mass ≠ 0 := fun h => hm (.inr h)
      exact_mod_cast this
    simp at e0
    have e1 : (p 3 : ℂ) + p 2 * p 2 / (p 3 + pr.mass) = pr.mass := by
      apply mul_left_cancel₀ hN
      linear_combination e0
    have e2 : (p 3 + pr.mass) * p 3 + p 2 * p 2 = pr.mass * (p 3 + pr.mass) := by
      have : ((p 3 : ℂ) + pr.mass) * p 3 + p 2 * p 2 = pr.mass * (p 3 + pr.mass) := by
        field_simp at e1
        linear_combination e1
      exact_mod_cast this
    have h3 := h.2.2
    rw [h0, h1] at h3
    have hp2 : 0 < p 2 * p 2 := by nlinarith
    nlinarith [h.1, h.2.1]

end AmpGen.Polarisation
