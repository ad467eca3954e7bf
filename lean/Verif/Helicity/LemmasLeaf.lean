import Verif.Helicity.LemmasAlign
/-
The amplitudes of a particle that does not decay.
-/
namespace AmpGen.Helicity
open Complex Spec
open AmpGen.Transform
open AmpGen.Polarisation (Mom Properties externalSpinTensor Bar fermionSign vector_dirac spinor_dirac)
open AmpGen.Polarisation.Spec
open AmpGen.Wigner (toInt toInt_int)

theorem fermion_basis (id : ℤ) (h : id ≠ 0) : ∃ χ : ℤ → V4, (∀ l, l = 1 ∨ l = -1 → basisSpinor l id = some (χ l)) ∧
    (∀ l, l = 1 ∨ l = -1 → (gamma 3).mulVec (χ l) = (fermionSign id : ℂ) • χ l) ∧
    ∀ l l', l = 1 ∨ l = -1 → l' = 1 ∨ l' = -1 → (fermionSign id : ℂ) * barDot (χ l) (χ l') = if l = l' then 1 else 0 := by
  rcases lt_or_gt_of_ne h with h | h
  · have hn : ¬ 0 < id := not_lt.2 h.le
    refine ⟨fun l => if l = 1 then ![0, 0, 1, 0] else ![0, 0, 0, 1], ?_, ?_, ?_⟩
    · rintro l (rfl | rfl) <;> simp [basisSpinor, hn, h]
    · rintro l (rfl | rfl) <;> funext i <;> fin_cases i <;> simp [fermionSign, hn, gamma, Matrix.mulVec, dotProduct, Fin.sum_univ_four]
    · rintro l l' (rfl | rfl) (rfl | rfl) <;> simp [fermionSign, hn, barDot]
  · have hn : ¬ id < 0 := not_lt.2 (le_of_lt h)
    refine ⟨fun l => if l = 1 then ![1, 0, 0, 0] else ![0, 1, 0, 0], ?_, ?_, ?_⟩
    · rintro l (rfl | rfl) <;> simp [basisSpinor, hn, h]
    · rintro l (rfl | rfl) <;> funext i <;> fin_cases i <;> simp [fermionSign, h, gamma, Matrix.mulVec, dotProduct, Fin.sum_univ_four]
    · rintro l l' (rfl | rfl) (rfl | rfl) <;> simp [fermionSign, h, barDot]

theorem vector_basis : ∃ e : ℤ → V4, (∀ l, l = 1 ∨ l = 0 ∨ l = -1 → basisVector l = some (e l)) ∧ (∀ l, l = 1 ∨ l = 0 ∨ l = -1 → e l 3 = 0) ∧
    ∀ l l', l = 1 ∨ l = 0 ∨ l = -1 → l' = 1 ∨ l' = 0 ∨ l' = -1 → -minkowski (cc (e l)) (e l') = if l = l' then 1 else 0 := by
  have h2 : ((1 / √2 : ℝ) : ℂ) * ((1 / √2 : ℝ) : ℂ) = 1 / 2 := AmpGen.Polarisation.half_sq
  refine ⟨fun l => if l = 0 then ![0, 0, 1, 0] else if l = 1 then (-((1 / √2 : ℝ) : ℂ) • ![1, I, 0, 0]) else (((1 / √2 : ℝ) : ℂ) • ![1, -I, 0, 0]), ?_, ?_, ?_⟩
  · rintro l (rfl | rfl | rfl) <;> simp [basisVector]
  · rintro l (rfl | rfl | rfl) <;> simp
  · obtain ⟨r, hr⟩ : ∃ r : ℝ, 1 / √2 = r := ⟨_, rfl⟩
    rw [hr] at h2 ⊢
    rintro l l' (rfl | rfl | rfl) (rfl | rfl | rfl) <;> simp [minkowski, cc] <;> first
      | linear_combination 2 * h2 - (r : ℂ) * r * I_mul_I
      | linear_combination -((r : ℂ) * r) * I_mul_I
      | linear_combination ((r : ℂ) * r) * I_mul_I

/-- The amplitude of a polarisation and a projection. -/
noncomputable def leafA (cfg : Config) (pr : Properties) (p : Mom) (F : TransformSequence) (pol : ℤ) (a : Nat) : ℂ :=
  (stableAmplitude cfg pr pol p (some F) (a - (pr.twoSpin : ℝ) / 2)).getD 0

theorem inverse_matrix (F : TransformSequence) : F.inverse.matrix .vector = some (.four (prodL vect (invL F.transforms))) ∧
    F.inverse.matrix .bispinor = some (.four (prodL bisp (invL F.transforms))) := by
  unfold TransformSequence.matrix
  rw [(inverse_transforms F).2]
  exact ⟨build_four _ _ matrix_vector _, build_four _ _ matrix_bispinor _⟩

/-- The projections of spin one half. -/
theorem half_projection (a : Nat) (h : a ≤ 1) : toInt (2 * ((a : ℝ) - ((1 : Nat) : ℝ) / 2)) = 2 * a - 1 ∧ ((2 * (a : ℤ) - 1 = 1) ∨ (2 * (a : ℤ) - 1 = -1)) := by
  refine ⟨?_, by omega⟩
  rw [show 2 * ((a : ℝ) - ((1 : Nat) : ℝ) / 2) = ((2 * (a : ℤ) - 1 : ℤ) : ℝ) by push_cast; ring, toInt_int]

theorem one_projection (a : Nat) (h : a ≤ 2) : toInt ((a : ℝ) - ((2 : Nat) : ℝ) / 2) = a - 1 ∧ ((a : ℤ) - 1 = 1 ∨ (a : ℤ) - 1 = 0 ∨ (a : ℤ) - 1 = -1) := by
  refine ⟨?_, by omega⟩
  rw [show (a : ℝ) - ((2 : Nat) : ℝ) / 2 = (((a : ℤ) - 1 : ℤ) : ℝ) by push_cast; ring, toInt_int]

/-- The states in the frame of the particle and those outside of the decay are related by a unitary matrix. -/
theorem leaf_unitary (cfg : Config) (hb : cfg.basis = .dirac) {pr : Properties} {p : Mom} {F : TransformSequence} (hF : Good F) (h2 : pr.twoSpin ≤ 2) (hp : OnShell pr.mass p)
    (hid : pr.pdgID ≠ 0) (hr : act F.transforms p = ![0, 0, 0, pr.mass]) :
    (∀ pol ∈ states pr, ∀ a ≤ pr.twoSpin, stableAmplitude cfg pr pol p (some F) (a - (pr.twoSpin : ℝ) / 2) = some (leafA cfg pr p F pol a)) ∧
    ∀ a b, a ≤ pr.twoSpin → b ≤ pr.twoSpin → ((states pr).map fun pol => leafA cfg pr p F pol a * (starRingEnd ℂ) (leafA cfg pr p F pol b)).sum = if a = b then 1 else 0 := by
  have hsome : ∀ (pol : ℤ) (a : Nat) (x : ℂ), stableAmplitude cfg pr pol p (some F) (a - (pr.twoSpin : ℝ) / 2) = some x →
      stableAmplitude cfg pr pol p (some F) (a - (pr.twoSpin : ℝ) / 2) = some (leafA cfg pr p F pol a) := by
    intro pol a x hx
    unfold leafA
    rw [hx]
    rfl
  obtain ⟨i1, i2⟩ := inverse_matrix F
  have hcases : pr.twoSpin = 0 ∨ pr.twoSpin = 1 ∨ pr.twoSpin = 2 := by omega
  rcases hcases with hs | hs | hs
  · have hv : ∀ pol (a : Nat), a ≤ pr.twoSpin → stableAmplitude cfg pr pol p (some F) (a - (pr.twoSpin : ℝ) / 2) = some 1 := by
      intro pol a ha
      have : a = 0 := by omega
      subst this
      unfold stableAmplitude
      rw [if_pos hs, hs]
      simp
    refine ⟨fun pol _ a ha => hsome pol a _ (hv pol a ha), fun a b ha hb => ?_⟩
    have e : a = b := by omega
    rw [if_pos e]
    unfold leafA states
    rw [if_pos hs]
    simp [hv _ a ha, hv _ b hb]
  · by_cases hns : cfg.noSpinAlign = true
    · have hv : ∀ pol (a : Nat), a ≤ pr.twoSpin → stableAmplitude cfg pr pol p (some F) (a - (pr.twoSpin : ℝ) / 2) = some (if 2 * (a : ℤ) - 1 = pol then 1 else 0) := by
        intro pol a ha
        unfold stableAmplitude
        rw [if_neg (by omega), if_pos hs, if_pos hns, hs]
        congr 1
        have e : (2 * ((a : ℝ) - ((1 : Nat) : ℝ) / 2) = (pol : ℝ)) ↔ 2 * (a : ℤ) - 1 = pol := by
          rw [show 2 * ((a : ℝ) - ((1 : Nat) : ℝ) / 2) = ((2 * (a : ℤ) - 1 : ℤ) : ℝ) by push_cast; ring]
          exact Int.cast_inj
        simp only [e]
      refine ⟨fun pol _ a ha => hsome pol a _ (hv pol a ha), fun a b ha hb => ?_⟩
      unfold leafA states
      rw [if_neg (by omega), if_pos hs]
      simp only [List.map_cons, List.map_nil, List.sum_cons, List.sum_nil, hv _ a ha, hv _ b hb, Option.getD_some]
      rw [hs] at ha hb
      have ha' : a = 0 ∨ a = 1 := by omega
      have hb' : b = 0 ∨ b = 1 := by omega
      rcases ha' with rfl | rfl <;> rcases hb' with rfl | rfl <;> simp
    · obtain ⟨u, hu1, hu2, -⟩ := spinor_dirac pr p hs hid hp
      obtain ⟨χ, c1, c2, c3⟩ := fermion_basis pr.pdgID hid
      have hv : ∀ pol, pol = 1 ∨ pol = -1 → ∀ (a : Nat), a ≤ pr.twoSpin → stableAmplitude cfg pr pol p (some F) (a - (pr.twoSpin : ℝ) / 2) =
          some (barDot ((prodL bisp (invL F.transforms)).mulVec (χ (2 * a - 1))) (u pol)) := by
        intro pol hpol a ha
        rw [hs] at ha
        obtain ⟨e1, e2⟩ := half_projection a ha
        unfold stableAmplitude
        rw [if_neg (by omega), if_pos hs, if_neg hns, hs, hb, hu1 pol hpol, e1, c1 _ e2, Option.bind_some, i2]
        simp only [bar_sum]
      refine ⟨fun pol hpol a ha => hsome pol a _ (hv pol ?_ a ha), fun a b ha hb => ?_⟩
      · unfold states at hpol
        rw [if_neg (by omega), if_pos hs] at hpol
        simpa using hpol
      · unfold leafA states
        rw [if_neg (by omega), if_pos hs]
        simp only [List.map_cons, List.map_nil, List.sum_cons, List.sum_nil, hv 1 (Or.inl rfl) a ha, hv 1 (Or.inl rfl) b hb, hv (-1) (Or.inr rfl) a ha, hv (-1) (Or.inr rfl) b hb,
          Option.getD_some, add_zero]
        rw [hs] at ha hb
        have e1 := (half_projection a ha).2
        have e2 := (half_projection b hb).2
        rw [spinor_sum hF.proper hp.1 (by unfold fermionSign; split <;> norm_num) hr hu2 (c2 _ e2), c3 _ _ e1 e2]
        by_cases hab : a = b
        · rw [if_pos hab, if_pos (by rw [hab])]
        · rw [if_neg hab, if_neg (by omega)]
  · obtain ⟨ε, he1, he2, -⟩ := vector_dirac pr p hs hp
    obtain ⟨e, c1, c2, c3⟩ := vector_basis
    have hv : ∀ pol, pol = 1 ∨ pol = 0 ∨ pol = -1 → ∀ (a : Nat), a ≤ pr.twoSpin → stableAmplitude cfg pr pol p (some F) (a - (pr.twoSpin : ℝ) / 2) =
        some (minkowski (cc ((prodL vect (invL F.transforms)).mulVec (e (a - 1)))) (ε pol)) := by
      intro pol hpol a ha
      rw [hs] at ha
      obtain ⟨e1, e2⟩ := one_projection a ha
      unfold stableAmplitude
      rw [if_neg (by omega), if_neg (by omega), if_pos hs, hs, hb, he1 pol hpol, e1, c1 _ e2, Option.bind_some, i1]
    refine ⟨fun pol hpol a ha => hsome pol a _ (hv pol ?_ a ha), fun a b ha hb => ?_⟩
    · unfold states at hpol
      rw [if_neg (by omega), if_neg (by omega)] at hpol
      simpa using hpol
    · unfold leafA states
      rw [if_neg (by omega), if_neg (by omega)]
      simp only [List.map_cons, List.map_nil, List.sum_cons, List.sum_nil, hv 1 (Or.inl rfl) a ha, hv 1 (Or.inl rfl) b hb, hv 0 (Or.inr (Or.inl rfl)) a ha,
        hv 0 (Or.inr (Or.inl rfl)) b hb, hv (-1) (Or.inr (Or.inr rfl)) a ha, hv (-1) (Or.inr (Or.inr rfl)) b hb, Option.getD_some, add_zero]
      rw [hs] at ha hb
      have e1 := (one_projection a ha).2
      have e2 := (one_projection b hb).2
      rw [← add_assoc, vector_sum hF.proper hr he2 (c2 _ e1), c3 _ _ e1 e2]
      by_cases hab : a = b
      · rw [if_pos hab, if_pos (by rw [hab])]
      · rw [if_neg hab, if_neg (by omega)]

end AmpGen.Helicity
