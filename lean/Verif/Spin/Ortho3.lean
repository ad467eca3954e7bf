import Verif.Spin.Ortho2
/- Exchanging the total spin with the spin of one particle. -/
namespace AmpGen.Spin
open Finset

theorem normOf_crossing (j1 m1 j2 m2 J : ℝ) : (2 * j1 + 1) * normOf j1 m1 j2 m2 J = (2 * J + 1) * normOf J (m1 + m2) j2 (-m2) j1 := by
  unfold normOf
  rw [show j1 + J - j2 = J + j1 - j2 by ring, show j1 - J + j2 = j1 + j2 - J by ring, show J + j2 - j1 = J - j1 + j2 by ring, show j2 - -m2 = j2 + m2 by ring,
    show j2 + -m2 = j2 - m2 by ring, show j1 + (m1 + m2 + -m2) = j1 + m1 by ring, show j1 - (m1 + m2 + -m2) = j1 - m1 by ring,
    show j1 + J + j2 + 1 = J + j1 + j2 + 1 by ring]
  ring

theorem summand_crossing (j1 m1 j2 m2 J : ℝ) (s : ℤ) (hs : J - j1 - m2 = s) (ν ν' : Nat) (h : (ν' : ℤ) = ν + s) :
    summand J (m1 + m2) j2 (-m2) j1 ν' = (-1) ^ s * summand j1 m1 j2 m2 J ν := by
  have hr : (ν' : ℝ) = ν + (J - j1 - m2) := by rw [hs]; exact_mod_cast h
  unfold summand
  rw [show J + j2 - j1 - (ν' : ℝ) = j2 + m2 - ν by rw [hr]; ring, show J - (m1 + m2) - (ν' : ℝ) = j1 - m1 - ν by rw [hr]; ring,
    show j2 + -m2 - (ν' : ℝ) = j1 + j2 - J - ν by rw [hr]; ring, show j1 - j2 + (m1 + m2) + (ν' : ℝ) = J - j2 + m1 + ν by rw [hr]; ring,
    show j1 - J - -m2 + (ν' : ℝ) = (ν : ℝ) by rw [hr]; ring]
  have n1 : (0 : ℝ) ≤ ν := Nat.cast_nonneg ν
  have n2 : (0 : ℝ) ≤ J - j1 - m2 + ν := by rw [show J - j1 - m2 + (ν : ℝ) = (ν' : ℝ) by rw [hr]; ring]; exact Nat.cast_nonneg ν'
  have hpow : (-1 : ℝ) ^ ν' = (-1) ^ s * (-1) ^ ν := by
    rw [← zpow_natCast, ← zpow_natCast, ← zpow_add₀ (by norm_num), h, add_comm]
  by_cases hb : j1 + j2 - J - (ν : ℝ) < 0 ∨ j1 - m1 - ν < 0 ∨ j2 + m2 - ν < 0 ∨ J - j2 + m1 + ν < 0 ∨ J - j1 - m2 + ν < 0
  · have hb' : j2 + m2 - (ν : ℝ) < 0 ∨ j1 - m1 - ν < 0 ∨ j1 + j2 - J - ν < 0 ∨ J - j2 + m1 + ν < 0 ∨ (ν : ℝ) < 0 := by
      rcases hb with hb | hb | hb | hb | hb
      · exact .inr (.inr (.inl hb))
      · exact .inr (.inl hb)
      · exact .inl hb
      · exact .inr (.inr (.inr (.inl hb)))
      · linarith
    rw [if_pos hb, if_pos hb', mul_zero]
  · have hb' : ¬ (j2 + m2 - (ν : ℝ) < 0 ∨ j1 - m1 - ν < 0 ∨ j1 + j2 - J - ν < 0 ∨ J - j2 + m1 + ν < 0 ∨ (ν : ℝ) < 0) := by
      simp only [not_or, not_lt] at hb ⊢
      exact ⟨hb.2.2.1, hb.2.1, hb.1, hb.2.2.2.1, n1⟩
    rw [if_neg hb, if_neg hb', hpow, mul_div_assoc, show (ν' : ℝ) = J - j1 - m2 + ν by rw [hr]; ring]
    congr 2
    ring

theorem summand_ne {j1 m1 j2 m2 J : ℝ} {ν : Nat} (h : summand j1 m1 j2 m2 J ν ≠ 0) : (ν : ℝ) ≤ j1 + j2 - J ∧ (ν : ℝ) ≤ j2 + m2 ∧ 0 ≤ J - j1 - m2 + ν := by
  unfold summand at h
  split at h
  · exact absurd rfl h
  · rename_i hc
    simp only [not_or, not_lt] at hc
    exact ⟨by linarith, by linarith, hc.2.2.2.2⟩

/-- C105.  Exchanging the total spin with the spin of the first particle. -/
theorem cg_crossing' (j1 m1 j2 m2 J : ℝ) (s : ℤ) (hs : J - j1 - m2 = s) (n n' : Nat) (hn : j1 + j2 - J = n) (hn' : J + j2 - j1 = n') (h1 : 0 ≤ j1) (hJ : 0 ≤ J) :
    √(2 * j1 + 1) * CG j1 m1 j2 m2 J (m1 + m2) = (-1) ^ s * (√(2 * J + 1) * CG J (m1 + m2) j2 (-m2) j1 m1) := by
  have e : CG J (m1 + m2) j2 (-m2) j1 m1 = CG J (m1 + m2) j2 (-m2) j1 ((m1 + m2) + -m2) := by congr 1; ring
  rw [e, CG_eq, CG_eq, ← mul_assoc (√(2 * j1 + 1)), ← mul_assoc (√(2 * J + 1)), ← Real.sqrt_mul (by linarith), ← Real.sqrt_mul (by linarith), normOf_crossing, hn, hn', passes_nat, passes_nat]
  rw [mul_left_comm]
  congr 1
  rw [mul_sum]
  symm
  have hss : (-1 : ℝ) ^ s * (-1) ^ s = 1 := by
    rw [← zpow_add₀ (by norm_num), ← two_mul, zpow_mul]; norm_num
  refine sum_bij_ne_zero (fun ν' _ _ => ((ν' : ℤ) - s).toNat) ?_ ?_ ?_ ?_
  · intro ν' _ h
    have h' : summand J (m1 + m2) j2 (-m2) j1 ν' ≠ 0 := fun h0 => h (by rw [h0, mul_zero])
    obtain ⟨k1, k2, k3⟩ := summand_ne h'
    simp only [mem_range]
    have : ((ν' : ℤ) - s : ℤ) ≤ n := by
      have : (ν' : ℝ) - s ≤ n := by rw [← hs, ← hn]; linarith
      exact_mod_cast this
    omega
  · intro a _ ha b _ hb hab
    have ha' : summand J (m1 + m2) j2 (-m2) j1 a ≠ 0 := fun h0 => ha (by rw [h0, mul_zero])
    have hb' : summand J (m1 + m2) j2 (-m2) j1 b ≠ 0 := fun h0 => hb (by rw [h0, mul_zero])
    have pa : 0 ≤ (a : ℤ) - s := by
      have : (0 : ℝ) ≤ (a : ℝ) - s := by rw [← hs]; linarith [(summand_ne ha').2.2]
      exact_mod_cast this
    have pb : 0 ≤ (b : ℤ) - s := by
      have : (0 : ℝ) ≤ (b : ℝ) - s := by rw [← hs]; linarith [(summand_ne hb').2.2]
      exact_mod_cast this
    omega
  · intro ν _ h
    obtain ⟨k1, k2, k3⟩ := summand_ne h
    have pa : 0 ≤ (ν : ℤ) + s := by
      have : (0 : ℝ) ≤ (ν : ℝ) + s := by rw [← hs]; linarith
      exact_mod_cast this
    have hc : ((((ν : ℤ) + s).toNat : Nat) : ℤ) = ν + s := by omega
    refine ⟨((ν : ℤ) + s).toNat, ?_, ?_, by omega⟩
    · simp only [mem_range]
      have : ((ν : ℤ) + s : ℤ) ≤ n' := by
        have : (ν : ℝ) + s ≤ n' := by rw [← hs, ← hn']; linarith
        exact_mod_cast this
      omega
    · rw [summand_crossing j1 m1 j2 m2 J s hs ν _ hc, ← mul_assoc, hss, one_mul]; exact h
  · intro ν' _ h
    have h' : summand J (m1 + m2) j2 (-m2) j1 ν' ≠ 0 := fun h0 => h (by rw [h0, mul_zero])
    have pa : 0 ≤ (ν' : ℤ) - s := by
      have : (0 : ℝ) ≤ (ν' : ℝ) - s := by rw [← hs]; linarith [(summand_ne h').2.2]
      exact_mod_cast this
    rw [summand_crossing j1 m1 j2 m2 J s hs ((ν' : ℤ) - s).toNat ν' (by omega), ← mul_assoc, hss, one_mul]

end AmpGen.Spin
