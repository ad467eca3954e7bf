import Mathlib.Algebra.BigOperators.Field
import Verif.Helicity.LemmasBoost
import Verif.Polarisation.Props
import Verif.Wigner.Lemmas
/-
The spin states in the frame of a particle and those outside of the decay.
-/
namespace AmpGen.Helicity
open Complex
open AmpGen.Transform
open AmpGen.Polarisation (Mom Properties externalSpinTensor Bar fermionSign)
open AmpGen.Polarisation.Spec
open AmpGen.Wigner (toInt toInt_int)

/-! ### Bispinors -/

theorem bisp_adjoint {t : Transform} (h : Proper t) (u w : V4) : barDot ((bisp t).mulVec u) w = barDot u ((bisp t.inverse).mulVec w) := by
  obtain ⟨-, hp⟩ := h
  rcases ht : t.type with _ | _
  · rw [ht] at hp
    obtain ⟨c, s, -, -, -, h2⟩ := boost_forms t ht hp
    rw [(h2 t ht rfl).2, (h2 t.inverse ht rfl).2]
    simp [barDot, Matrix.mulVec, dotProduct, Fin.sum_univ_four, make_bispinor_operator, Q, Transform.inverse]
    ring
  · rw [ht] at hp
    obtain ⟨c, s, -, -, -, h2⟩ := rotate_forms t ht hp.1 hp.2
    rw [(h2 t ht rfl).2, (h2 t.inverse ht rfl).2, (h2 t ht rfl).1, (h2 t.inverse ht rfl).1]
    simp [barDot, Matrix.mulVec, dotProduct, Fin.sum_univ_four, make_bispinor_operator, Q, Transform.inverse]
    ring

theorem bisp_bar {ts : List Transform} (h : ∀ t ∈ ts, Proper t) (u v : V4) : barDot ((prodL bisp ts).mulVec u) ((prodL bisp ts).mulVec v) = barDot u v := by
  induction ts generalizing u v with
  | nil => simp [prodL]
  | cons t ts ih =>
    have ht := h t List.mem_cons_self
    rw [prodL, ← Matrix.mulVec_mulVec, ← Matrix.mulVec_mulVec, ih fun u hu => h u (List.mem_cons_of_mem _ hu), bisp_adjoint ht, Matrix.mulVec_mulVec, (spin_inverse ht).2,
      Matrix.one_mulVec]

theorem barDot_conj (u v : V4) : (starRingEnd ℂ) (barDot u v) = barDot v u := by
  simp [barDot]; ring

theorem barDot_add (u v w : V4) : barDot u (v + w) = barDot u v + barDot u w := by simp [barDot]; ring

theorem barDot_smul (u v : V4) (c : ℂ) : barDot u (c • v) = c * barDot u v := by simp [barDot]; ring

theorem bar_sum (u v : V4) : ∑ i, Bar u i * v i = barDot u v := by
  simp [Fin.sum_univ_four, Bar, barDot]; ring

theorem proper_inv {ts : List Transform} (h : ∀ t ∈ ts, Proper t) : ∀ t ∈ invL ts, Proper t := by
  intro t ht
  unfold invL at ht
  obtain ⟨u, hu, rfl⟩ := List.mem_map.mp ht
  exact (h u (List.mem_reverse.mp hu)).inverse

/-- A spinor at rest, brought to the frame in which the particle moves, solves Dirac's equation. -/
theorem boosted_solves {ts : List Transform} (h : ∀ t ∈ ts, Proper t) {p : Mom} {m s : ℝ} (hr : act ts p = ![0, 0, 0, m]) {χ : V4} (hχ : (gamma 3).mulVec χ = (s : ℂ) • χ) :
    (slash (cx p)).mulVec ((prodL bisp (invL ts)).mulVec χ) = ((s * m : ℝ) : ℂ) • (prodL bisp (invL ts)).mulVec χ := by
  have hS : prodL bisp (invL ts) * prodL bisp ts = 1 := prodL_inv bisp fun t ht => (spin_inverse (h t ht)).2
  have hc := (covering_list h (cx p)).1
  rw [act_eq, hr] at hc
  have hsl : slash (cx ![0, 0, 0, m]) = (m : ℂ) • gamma 3 := by
    unfold slash
    simp [cx]
  rw [hsl] at hc
  calc (slash (cx p)).mulVec ((prodL bisp (invL ts)).mulVec χ) = ((prodL bisp (invL ts) * prodL bisp ts) * slash (cx p) * prodL bisp (invL ts)).mulVec χ := by
        rw [hS, one_mul, Matrix.mulVec_mulVec]
    _ = (prodL bisp (invL ts) * (prodL bisp ts * slash (cx p) * prodL bisp (invL ts))).mulVec χ := by simp only [mul_assoc]
    _ = (prodL bisp (invL ts)).mulVec ((m : ℂ) • (s : ℂ) • χ) := by rw [hc, ← Matrix.mulVec_mulVec, Matrix.smul_mulVec, hχ]
    _ = _ := by rw [Matrix.mulVec_smul, Matrix.mulVec_smul, smul_smul]; push_cast; rw [mul_comm (m : ℂ)]

/-- The sum over the states outside of the decay. -/
theorem spinor_sum {ts : List Transform} (h : ∀ t ∈ ts, Proper t) {p : Mom} {m s : ℝ} (hm : 0 < m) (hs : s * s = 1) (hr : act ts p = ![0, 0, 0, m]) {u : ℤ → V4}
    (hu : SpinHalf s m p u) {χ χ' : V4} (h' : (gamma 3).mulVec χ' = (s : ℂ) • χ') :
    barDot ((prodL bisp (invL ts)).mulVec χ) (u 1) * (starRingEnd ℂ) (barDot ((prodL bisp (invL ts)).mulVec χ') (u 1)) +
      barDot ((prodL bisp (invL ts)).mulVec χ) (u (-1)) * (starRingEnd ℂ) (barDot ((prodL bisp (invL ts)).mulVec χ') (u (-1))) = s * barDot χ χ' := by
  have hc := hu.complete ((prodL bisp (invL ts)).mulVec χ')
  rw [boosted_solves h hr h'] at hc
  have hm' : (m : ℂ) ≠ 0 := by exact_mod_cast hm.ne'
  have e : (1 / (2 * m) : ℂ) • (((s * m : ℝ) : ℂ) • (prodL bisp (invL ts)).mulVec χ' + ((s * m : ℝ) : ℂ) • (prodL bisp (invL ts)).mulVec χ') =
      (s : ℂ) • (prodL bisp (invL ts)).mulVec χ' := by
    rw [← add_smul, smul_smul]
    congr 1
    push_cast
    field_simp
    ring
  rw [e] at hc
  have := congrArg (barDot ((prodL bisp (invL ts)).mulVec χ)) hc
  rw [barDot_add, barDot_smul, barDot_smul, barDot_smul, bisp_bar (proper_inv h)] at this
  rw [barDot_conj, barDot_conj, ← this]
  ring

/-! ### Vectors -/

theorem built_list (ts : List Transform) : Built ⟨ts, buildCache ts⟩ := by
  induction ts using List.reverseRecOn with
  | nil => exact Built.empty
  | append_singleton ts t ih => exact Built.push _ t ih

theorem lorentz_list {ts : List Transform} (h : ∀ t ∈ ts, Proper t) : prodL vect (invL ts) * prodL vect ts = 1 ∧ prodL vect ts * prodL vect (invL ts) = 1 ∧
    ∀ p q, minkowski ((prodL vect ts).mulVec p) ((prodL vect ts).mulVec q) = minkowski p q := by
  obtain ⟨L, L', S, S', h1, h2, -, -, h3, h4, -, -, h5, -⟩ := transform_lorentz ⟨ts, buildCache ts⟩ (built_list ts) h
  have k1 := (built_cache (built_list ts)).1
  have k2 := (built_cache (Built.inverse _ (built_list ts))).1
  rw [(inverse_transforms _).1] at k2
  rw [k1] at h1
  rw [k2] at h2
  simp only [Option.some.injEq, Tensor.four.injEq] at h1 h2
  rw [h1, h2]
  exact ⟨h3, h4, h5⟩

theorem vect_real (ts : List Transform) (i j : Fin 4) : (starRingEnd ℂ) (prodL vect ts i j) = prodL vect ts i j := by
  have h := congrFun (act_eq ts (Pi.single j 1)) i
  have e : cx (Pi.single j 1) = Pi.single j 1 := by
    funext k
    unfold cx
    by_cases hk : k = j
    · subst hk; simp
    · simp [hk]
  rw [e, Matrix.mulVec_single_one] at h
  simp only [Matrix.col_apply] at h
  rw [h]
  simp [cx]

theorem cc_mulVec (ts : List Transform) (v : V4) : cc ((prodL vect ts).mulVec v) = (prodL vect ts).mulVec (cc v) := by
  funext i
  simp only [cc, Matrix.mulVec, dotProduct, map_sum, map_mul, vect_real]

theorem minkowski_cc (u v : V4) : (starRingEnd ℂ) (minkowski u v) = minkowski (cc u) (cc v) := by
  simp [minkowski, cc]

theorem cc_cc (v : V4) : cc (cc v) = v := by
  funext i; simp [cc]

theorem vector_sum {ts : List Transform} (h : ∀ t ∈ ts, Proper t) {p : Mom} {m : ℝ} (hr : act ts p = ![0, 0, 0, m]) {ε : ℤ → V4}
    (hε : SpinOne m p ε) {e e' : V4} (h0 : e 3 = 0) :
    minkowski (cc ((prodL vect (invL ts)).mulVec e)) (ε 1) * (starRingEnd ℂ) (minkowski (cc ((prodL vect (invL ts)).mulVec e')) (ε 1)) +
      minkowski (cc ((prodL vect (invL ts)).mulVec e)) (ε 0) * (starRingEnd ℂ) (minkowski (cc ((prodL vect (invL ts)).mulVec e')) (ε 0)) +
      minkowski (cc ((prodL vect (invL ts)).mulVec e)) (ε (-1)) * (starRingEnd ℂ) (minkowski (cc ((prodL vect (invL ts)).mulVec e')) (ε (-1))) = -minkowski (cc e) e' := by
  obtain ⟨h1, h2, h3⟩ := lorentz_list h
  obtain ⟨-, -, h3'⟩ := lorentz_list (proper_inv h)
  obtain ⟨x, hx⟩ : ∃ x, cc ((prodL vect (invL ts)).mulVec e) = x := ⟨_, rfl⟩
  obtain ⟨y, hy⟩ : ∃ y, (prodL vect (invL ts)).mulVec e' = y := ⟨_, rfl⟩
  have hxy : minkowski x y = minkowski (cc e) e' := by rw [← hx, ← hy, cc_mulVec, h3']
  have hxp : minkowski x (cx p) = 0 := by
    rw [← hx, cc_mulVec, ← h3 _ (cx p), act_eq, hr, Matrix.mulVec_mulVec, h2, Matrix.one_mulVec]
    simp [minkowski, cx, cc, h0]
  rw [minkowski_cc, minkowski_cc, minkowski_cc, cc_cc, hx, hy, ← hxy]
  have key : minkowski x (ε 1) * minkowski y (cc (ε 1)) + minkowski x (ε 0) * minkowski y (cc (ε 0)) + minkowski x (ε (-1)) * minkowski y (cc (ε (-1))) =
      -minkowski x y + minkowski x (cx p) * minkowski y (cx p) / m ^ 2 := by
    have hc := hε.complete
    have e : ∀ μ ν, ε 1 μ * cc (ε 1) ν + ε 0 μ * cc (ε 0) ν + ε (-1) μ * cc (ε (-1)) ν - (-metric μ ν + cx p μ * cx p ν / m ^ 2) = 0 := fun μ ν => sub_eq_zero.2 (hc μ ν)
    have sumform : ∀ a b : V4, minkowski a b = ∑ μ, metric μ μ * a μ * b μ := by
      intro a b
      simp [minkowski, metric, Fin.sum_univ_four]
      ring
    have hz : ∑ μ, ∑ ν, metric μ μ * metric ν ν * x μ * y ν * (ε 1 μ * cc (ε 1) ν + ε 0 μ * cc (ε 0) ν + ε (-1) μ * cc (ε (-1)) ν - (-metric μ ν + cx p μ * cx p ν / m ^ 2)) = 0 := by
      simp only [e, mul_zero, Finset.sum_const_zero]
    have g : ∑ μ, ∑ ν, metric μ μ * metric ν ν * x μ * y ν * metric μ ν = minkowski x y := by
      rw [sumform]
      refine Finset.sum_congr rfl fun μ _ => ?_
      rw [Finset.sum_eq_single μ]
      · have : metric μ μ * metric μ μ = 1 := by
          unfold metric
          rw [if_pos rfl]
          split <;> norm_num
        linear_combination (metric μ μ * x μ * y μ) * this
      · intro ν _ hν
        have : metric μ ν = 0 := by unfold metric; rw [if_neg (Ne.symm hν)]
        rw [this, mul_zero]
      · simp
    have prod : ∀ a b : V4, ∑ μ, ∑ ν, metric μ μ * metric ν ν * x μ * y ν * (a μ * b ν) = minkowski x a * minkowski y b := by
      intro a b
      rw [sumform, sumform, Finset.sum_mul_sum]
      refine Finset.sum_congr rfl fun μ _ => Finset.sum_congr rfl fun ν _ => ?_
      ring
    rw [← prod, ← prod, ← prod, ← prod, ← g]
    have : ∀ μ ν, metric μ μ * metric ν ν * x μ * y ν * (ε 1 μ * cc (ε 1) ν + ε 0 μ * cc (ε 0) ν + ε (-1) μ * cc (ε (-1)) ν - (-metric μ ν + cx p μ * cx p ν / m ^ 2)) =
        metric μ μ * metric ν ν * x μ * y ν * (ε 1 μ * cc (ε 1) ν) + metric μ μ * metric ν ν * x μ * y ν * (ε 0 μ * cc (ε 0) ν) +
        metric μ μ * metric ν ν * x μ * y ν * (ε (-1) μ * cc (ε (-1)) ν) + metric μ μ * metric ν ν * x μ * y ν * metric μ ν -
        metric μ μ * metric ν ν * x μ * y ν * (cx p μ * cx p ν) / m ^ 2 := by intro μ ν; ring
    simp only [this, Finset.sum_sub_distrib, Finset.sum_add_distrib, ← Finset.sum_div] at hz
    linear_combination hz
  rw [key, hxp]
  ring

end AmpGen.Helicity
