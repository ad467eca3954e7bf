import Verif.Dalitz.Lemmas
/-
C108: coordinates of the square Dalitz plot.
-/
namespace AmpGen.Dalitz

open AmpGen.Kinematics (P4)

variable {M m1 m2 m3 : ℝ}

/-- C108: every point of the square is a physical event of the decay, with the mass of the pair that belongs to the point. -/
theorem dalitz_event (h : Masses M m1 m2 m3) (x : ℝ × ℝ) :
    let d := make (M ^ 2) (m1 ^ 2) (m2 ^ 2) (m3 ^ 2)
    let e := d.setEvent x fun _ => 0
    Physical M m1 m2 m3 (at4 e 0) (at4 e 1) (at4 e 2) ∧ massSq [at4 e 0, at4 e 1] = d.getMAB x ^ 2 ∧ m1 + m2 ≤ d.getMAB x ∧ d.getMAB x ≤ M - m3 := by
  intro d e
  have hm := pairMass_mem h x.1
  have hp := h.pair
  have he : e = sample M m1 m2 m3 (pairMass M m1 m2 m3 x.1) x.2 := setEvent_eq h x
  have hd : d.getMAB x = pairMass M m1 m2 m3 x.1 := getMAB_eq h x
  rw [he, hd]
  exact ⟨sample_physical h hm.1 hm.2 _, massSq12 _ _ _ _ (by linarith) _, hm⟩

/-- C108: the coordinates of the event of a point inside the square are the point. -/
theorem dalitz_coordinates (h : Masses M m1 m2 m3) (x : ℝ × ℝ) (h0 : 0 < x.1) (h1 : x.1 < 1) (h2 : 0 ≤ x.2) (h3 : x.2 ≤ 1) :
    let d := make (M ^ 2) (m1 ^ 2) (m2 ^ 2) (m3 ^ 2)
    let e := d.setEvent x fun _ => 0
    d.sqDp1 e = x.1 ∧ d.sqDp2 e = some x.2 := by
  intro d e
  have hm := pairMass_mem h x.1
  have hs := pairMass_strict h h0 h1
  have hp := h.pair
  have hr := h.range
  have he : e = sample M m1 m2 m3 (pairMass M m1 m2 m3 x.1) x.2 := setEvent_eq h x
  have hphys := sample_physical h hm.1 hm.2 x.2
  have hm0 : 0 < pairMass M m1 m2 m3 x.1 := by linarith
  have h12 := massSq12 M m1 m2 m3 hm0 x.2
  rw [he]
  constructor
  · unfold Integrator.sqDp1
    simp only [Dot_massSq, h12]
    rw [Real.sqrt_sq hm0.le, show d.min = m1 + m2 from make_min h, show d.max = M - m3 from make_max h]
    have harg : 2 * (pairMass M m1 m2 m3 x.1 - (m1 + m2)) / (M - m3 - (m1 + m2)) - 1 = Real.cos (Real.pi * x.1) := by
      unfold pairMass
      have : M - m3 - (m1 + m2) ≠ 0 := by linarith
      field_simp
      ring
    rw [harg, if_neg, Real.arccos_cos, mul_div_cancel_left₀ _ Real.pi_ne_zero]
    · have := Real.pi_pos; positivity
    · have := Real.pi_pos; nlinarith
    · have e1 := Real.neg_one_le_cos (Real.pi * x.1)
      have e2 := Real.cos_le_one (Real.pi * x.1)
      push Not; exact ⟨e2, e1⟩
  · obtain ⟨v1, v3, v13⟩ := dotProduct_values hphys hm0 h12
    have w13 := massSq13 h hm.1 hm.2 x.2
    have v : dotProduct (at4 (sample M m1 m2 m3 (pairMass M m1 m2 m3 x.1) x.2) 0) (at4 (sample M m1 m2 m3 (pairMass M m1 m2 m3 x.1) x.2) 2)
        (plus (at4 (sample M m1 m2 m3 (pairMass M m1 m2 m3 x.1) x.2) 0) (at4 (sample M m1 m2 m3 (pairMass M m1 m2 m3 x.1) x.2) 1)) =
        kA m1 m2 (pairMass M m1 m2 m3 x.1) * kC M m3 (pairMass M m1 m2 m3 x.1) * Real.cos (Real.pi * x.2) := by linarith
    have kA0 : 0 < kA m1 m2 (pairMass M m1 m2 m3 x.1) := Real.sqrt_pos.2 (kA_pos h hs.1)
    have kC0 : 0 < kC M m3 (pairMass M m1 m2 m3 x.1) := Real.sqrt_pos.2 (kC_pos h hm.1 hs.2)
    unfold Integrator.sqDp2
    simp only [v1, v3, v]
    rw [← kA_sq h hm.1, ← kC_sq h hm.1 hm.2, if_neg (not_le.2 (by positivity)), ← mul_pow, Real.sqrt_sq (by positivity),
      mul_div_cancel_left₀ _ (by positivity), Real.arccos_cos, mul_div_cancel_left₀ _ Real.pi_ne_zero]
    · have := Real.pi_pos; positivity
    · have := Real.pi_pos; nlinarith

theorem cos_pi_arccos {c : ℝ} (h1 : -1 ≤ c) (h2 : c ≤ 1) : Real.cos (Real.pi * (Real.arccos c / Real.pi)) = c := by
  rw [mul_div_cancel₀ _ Real.pi_ne_zero, Real.cos_arccos h1 h2]

/-- C108: every physical event, in any frame, whose pair mass is not at the ends of its range has coordinates in the square, and the event at its coordinates has the same
masses of all pairs. -/
theorem dalitz_covers (h : Masses M m1 m2 m3) (ev : Momenta) (hp : Physical M m1 m2 m3 (at4 ev 0) (at4 ev 1) (at4 ev 2))
    (hlo : m1 + m2 < √(massSq [at4 ev 0, at4 ev 1])) (hhi : √(massSq [at4 ev 0, at4 ev 1]) < M - m3) :
    let d := make (M ^ 2) (m1 ^ 2) (m2 ^ 2) (m3 ^ 2)
    ∃ y, d.sqDp2 ev = some y ∧ 0 ≤ d.sqDp1 ev ∧ d.sqDp1 ev ≤ 1 ∧ 0 ≤ y ∧ y ≤ 1 ∧
      let e := d.setEvent (d.sqDp1 ev, y) fun _ => 0
      massSq [at4 e 0, at4 e 1] = massSq [at4 ev 0, at4 ev 1] ∧ massSq [at4 e 0, at4 e 2] = massSq [at4 ev 0, at4 ev 2] ∧
      massSq [at4 e 1, at4 e 2] = massSq [at4 ev 1, at4 ev 2] := by
  intro d
  have hpr := h.pair
  have hr := h.range
  obtain ⟨m, hmdef⟩ : ∃ m, √(massSq [at4 ev 0, at4 ev 1]) = m := ⟨_, rfl⟩
  rw [hmdef] at hlo hhi
  have hm0 : 0 < m := by linarith
  have h12 : massSq [at4 ev 0, at4 ev 1] = m ^ 2 := by
    rw [← hmdef, Real.sq_sqrt]
    by_contra hneg
    rw [Real.sqrt_eq_zero_of_nonpos (by linarith)] at hmdef
    linarith
  obtain ⟨v1, v3, v13⟩ := dotProduct_values hp hm0 h12
  have kA0 : 0 < enA m1 m2 m ^ 2 - m1 ^ 2 := kA_pos h hlo
  have kC0 : 0 < enC M m3 m ^ 2 - m3 ^ 2 := kC_pos h hlo.le hhi
  have hcs := dotProduct_le (p := at4 ev 0) (q := at4 ev 2) (P := plus (at4 ev 0) (at4 ev 1)) (by rw [Dot_massSq, h12]; positivity)
  rw [v1, v3, ← kA_sq h hlo.le, ← kC_sq h hlo.le hhi.le, ← mul_pow] at hcs
  have hk : 0 < kA m1 m2 m * kC M m3 m := mul_pos (Real.sqrt_pos.2 kA0) (Real.sqrt_pos.2 kC0)
  have habs := abs_le.1 (abs_le_of_sq_le_sq hcs hk.le)
  obtain ⟨c, hc⟩ : ∃ c, dotProduct (at4 ev 0) (at4 ev 2) (plus (at4 ev 0) (at4 ev 1)) / (kA m1 m2 m * kC M m3 m) = c := ⟨_, rfl⟩
  have hc1 : -1 ≤ c := by rw [← hc, le_div_iff₀ hk]; linarith
  have hc2 : c ≤ 1 := by rw [← hc, div_le_iff₀ hk]; linarith
  have hy : d.sqDp2 ev = some (Real.arccos c / Real.pi) := by
    unfold Integrator.sqDp2
    simp only [v1, v3]
    rw [if_neg (not_le.2 (mul_pos kA0 kC0)), ← kA_sq h hlo.le, ← kC_sq h hlo.le hhi.le, ← mul_pow, Real.sqrt_sq hk.le, hc]
  obtain ⟨b, hb⟩ : ∃ b, 2 * (m - (m1 + m2)) / (M - m3 - (m1 + m2)) - 1 = b := ⟨_, rfl⟩
  have hrr : 0 < M - m3 - (m1 + m2) := by linarith
  have hbm : b * (M - m3 - (m1 + m2)) = 2 * (m - (m1 + m2)) - (M - m3 - (m1 + m2)) := by
    rw [← hb]; field_simp
  have hb1 : -1 ≤ b := by
    by_contra hlt
    push Not at hlt
    nlinarith
  have hb2 : b ≤ 1 := by
    by_contra hlt
    push Not at hlt
    nlinarith
  have hx : d.sqDp1 ev = Real.arccos b / Real.pi := by
    unfold Integrator.sqDp1
    simp only [Dot_massSq, hmdef]
    rw [show d.min = m1 + m2 from make_min h, show d.max = M - m3 from make_max h, hb, if_neg]
    push Not; exact ⟨hb2, hb1⟩
  have hpi := Real.pi_pos
  have hpm : pairMass M m1 m2 m3 (d.sqDp1 ev) = m := by
    unfold pairMass
    rw [hx, cos_pi_arccos hb1 hb2]
    linear_combination hbm / 2
  refine ⟨_, hy, ?_, ?_, ?_, ?_, ?_⟩
  · rw [hx]; exact div_nonneg (Real.arccos_nonneg _) hpi.le
  · rw [hx, div_le_one hpi]; exact Real.arccos_le_pi _
  · exact div_nonneg (Real.arccos_nonneg _) hpi.le
  · rw [div_le_one hpi]; exact Real.arccos_le_pi _
  · intro e
    have he : e = sample M m1 m2 m3 m (Real.arccos c / Real.pi) := by
      have := setEvent_eq h (d.sqDp1 ev, Real.arccos c / Real.pi)
      simp only [hpm] at this
      exact this
    rw [he]
    have e12 := massSq12 M m1 m2 m3 hm0 (Real.arccos c / Real.pi)
    have e13 : massSq [at4 (sample M m1 m2 m3 m (Real.arccos c / Real.pi)) 0, at4 (sample M m1 m2 m3 m (Real.arccos c / Real.pi)) 2] =
        massSq [at4 ev 0, at4 ev 2] := by
      rw [massSq13 h hlo.le hhi.le, cos_pi_arccos hc1 hc2, v13, ← hc, mul_div_cancel₀ _ hk.ne']
    have hph := sample_physical h hlo.le hhi.le (Real.arccos c / Real.pi)
    have hall : ∀ p1 p2 p3 : P4, Physical M m1 m2 m3 p1 p2 p3 → massSq [p2, p3] = M ^ 2 + m1 ^ 2 + m2 ^ 2 + m3 ^ 2 - massSq [p1, p2] - massSq [p1, p3] := by
      intro p1 p2 p3 q
      rw [← q.total, ← q.shell1.dot, ← q.shell2.dot, ← q.shell3.dot]
      simp [massSq, P4.Dot]; ring
    refine ⟨by rw [e12, h12], e13, ?_⟩
    rw [hall _ _ _ hph, hall _ _ _ hp, e12, h12, e13]

/-- The decay of a particle of mass 2 to three of mass 1/2, 1/4 and 1/4. -/
theorem sample_masses : Masses 2 (1 / 2) (1 / 4) (1 / 4) := ⟨by norm_num, by norm_num, by norm_num, by norm_num, by norm_num⟩

example : Masses 2 (1 / 2) (1 / 4) (1 / 4) ∧ (0 : ℝ) < 1 / 3 ∧ (1 / 3 : ℝ) < 1 := ⟨sample_masses, by norm_num, by norm_num⟩

example : ∃ ev : Momenta, Physical 2 (1 / 2) (1 / 4) (1 / 4) (at4 ev 0) (at4 ev 1) (at4 ev 2) ∧
    1 / 2 + 1 / 4 < √(massSq [at4 ev 0, at4 ev 1]) ∧ √(massSq [at4 ev 0, at4 ev 1]) < 2 - 1 / 4 := by
  have h := dalitz_event sample_masses (1 / 2, 1 / 2)
  have hs := pairMass_strict sample_masses (x := 1 / 2) (by norm_num) (by norm_num)
  have hg := getMAB_eq sample_masses (1 / 2, 1 / 2)
  obtain ⟨h1, h2, _, _⟩ := h
  refine ⟨_, h1, ?_⟩
  rw [h2, hg, Real.sqrt_sq (by linarith [hs.1])]
  exact hs

end AmpGen.Dalitz
