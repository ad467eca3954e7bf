import Verif.Spin.Ortho
/- The Clebsch-Gordan coefficients are the coefficients of the polynomials. -/
namespace AmpGen.Spin
open Finset

/-- The part of the normalisation that depends on the projections of the two particles. -/
noncomputable def wgt (A B a b : Nat) : ℝ := a.factorial * (A - a).factorial * (b.factorial * (B - b).factorial)

/-- The part that does not. -/
noncomputable def cN (n p q K : Nat) : ℝ :=
  ((p : ℝ) + q + 1) * (K.factorial * (p + q - K).factorial) / ((p + q + n + 1).factorial * (n.factorial * p.factorial * q.factorial))

theorem CG_poly (n p q K a b : Nat) (ha : a ≤ p + n) (hb : b ≤ q + n) (hK : K ≤ p + q) :
    CG ((p + n : Nat) / 2) (a - (p + n : Nat) / 2) ((q + n : Nat) / 2) (b - (q + n : Nat) / 2) ((p + q : Nat) / 2) (K - (p + q : Nat) / 2) =
      √(cN n p q K) * √(wgt (p + n) (q + n) a b) * dn n (gg p q K) a b := by
  by_cases hM : a + b = K + n
  · have hKr : (K : ℝ) = a + b - n := by
      have : (a : ℝ) + b = K + n := by exact_mod_cast hM
      linarith
    have hMr : (K : ℝ) - (p + q : Nat) / 2 = ((a : ℝ) - (p + n : Nat) / 2) + (b - (q + n : Nat) / 2) := by rw [hKr]; push_cast; ring
    rw [hMr, CG_eq]
    have e0 : ((p + n : Nat) : ℝ) / 2 + ((q + n : Nat) : ℝ) / 2 - ((p + q : Nat) : ℝ) / 2 = (n : ℝ) := by push_cast; ring
    rw [e0, passes_nat, dn_eq, mul_sum, mul_sum]
    have hsq : √(normOf ((p + n : Nat) / 2) (a - (p + n : Nat) / 2) ((q + n : Nat) / 2) (b - (q + n : Nat) / 2) ((p + q : Nat) / 2)) =
        √(cN n p q K) * √(wgt (p + n) (q + n) a b) * (n.factorial * p.factorial * q.factorial) := by
      have : normOf ((p + n : Nat) / 2) (a - (p + n : Nat) / 2) ((q + n : Nat) / 2) (b - (q + n : Nat) / 2) ((p + q : Nat) / 2) =
          cN n p q K * wgt (p + n) (q + n) a b * ((n.factorial * p.factorial * q.factorial) * (n.factorial * p.factorial * q.factorial)) := by
        unfold normOf cN wgt
        rw [show ((p + q : Nat) : ℝ) / 2 + ((p + n : Nat) : ℝ) / 2 - ((q + n : Nat) : ℝ) / 2 = (p : ℝ) by push_cast; ring,
          show ((p + q : Nat) : ℝ) / 2 - ((p + n : Nat) : ℝ) / 2 + ((q + n : Nat) : ℝ) / 2 = (q : ℝ) by push_cast; ring, e0,
          show ((p + n : Nat) : ℝ) / 2 + ((a : ℝ) - (p + n : Nat) / 2) = (a : ℝ) by ring,
          show ((p + n : Nat) : ℝ) / 2 - ((a : ℝ) - (p + n : Nat) / 2) = ((p + n - a : Nat) : ℝ) by rw [Nat.cast_sub ha]; ring,
          show ((q + n : Nat) : ℝ) / 2 + ((b : ℝ) - (q + n : Nat) / 2) = (b : ℝ) by ring,
          show ((q + n : Nat) : ℝ) / 2 - ((b : ℝ) - (q + n : Nat) / 2) = ((q + n - b : Nat) : ℝ) by rw [Nat.cast_sub hb]; ring,
          ← hMr,
          show ((p + q : Nat) : ℝ) / 2 + ((K : ℝ) - (p + q : Nat) / 2) = (K : ℝ) by ring,
          show ((p + q : Nat) : ℝ) / 2 - ((K : ℝ) - (p + q : Nat) / 2) = ((p + q - K : Nat) : ℝ) by rw [Nat.cast_sub hK]; ring,
          show ((p + q : Nat) : ℝ) / 2 + ((p + n : Nat) : ℝ) / 2 + ((q + n : Nat) : ℝ) / 2 + 1 = ((p + q + n + 1 : Nat) : ℝ) by push_cast; ring]
        simp only [fact_nat]
        push_cast
        field_simp
      rw [this, Real.sqrt_mul (by unfold cN wgt; positivity), Real.sqrt_mul (by unfold cN; positivity), Real.sqrt_mul_self (by positivity)]
    rw [hsq]
    refine sum_congr rfl fun ν hν => ?_
    have hν' : ν ≤ n := by simp at hν; omega
    have key : (n.factorial * p.factorial * q.factorial : ℝ) *
        summand ((p + n : Nat) / 2) (a - (p + n : Nat) / 2) ((q + n : Nat) / 2) (b - (q + n : Nat) / 2) ((p + q : Nat) / 2) ν =
        ((-1) ^ ν * n.choose ν) * sh (n - ν) ν (gg p q K) a b := by
      unfold summand sh
      rw [e0, show ((p + n : Nat) : ℝ) / 2 - ((a : ℝ) - (p + n : Nat) / 2) - ν = ((p + n : Nat) : ℝ) - a - ν by ring,
        show ((q + n : Nat) : ℝ) / 2 + ((b : ℝ) - (q + n : Nat) / 2) - ν = (b : ℝ) - ν by ring,
        show ((p + q : Nat) : ℝ) / 2 - ((q + n : Nat) : ℝ) / 2 + ((a : ℝ) - (p + n : Nat) / 2) + ν = (a : ℝ) - n + ν by push_cast; ring,
        show ((p + q : Nat) : ℝ) / 2 - ((p + n : Nat) : ℝ) / 2 - ((b : ℝ) - (q + n : Nat) / 2) + ν = (q : ℝ) - b + ν by push_cast; ring]
      by_cases hc : a + ν ≤ p + n ∧ ν ≤ b ∧ n ≤ a + ν ∧ b ≤ q + ν
      · obtain ⟨c1, c2, c3, c4⟩ := hc
        have g1 : (n : ℝ) - ν = ((n - ν : Nat) : ℝ) := by rw [Nat.cast_sub hν']
        have g2 : ((p + n : Nat) : ℝ) - a - ν = ((p + n - (a + ν) : Nat) : ℝ) := by rw [Nat.cast_sub c1]; push_cast; ring
        have g3 : (b : ℝ) - ν = ((b - ν : Nat) : ℝ) := by rw [Nat.cast_sub c2]
        have g4 : (a : ℝ) - n + ν = ((a + ν - n : Nat) : ℝ) := by rw [Nat.cast_sub c3]; push_cast; ring
        have g5 : (q : ℝ) - b + ν = ((q + ν - b : Nat) : ℝ) := by rw [Nat.cast_sub c4]; push_cast; ring
        rw [g1, g2, g3, g4, g5]
        have hneg : ¬ (((n - ν : Nat) : ℝ) < 0 ∨ ((p + n - (a + ν) : Nat) : ℝ) < 0 ∨ ((b - ν : Nat) : ℝ) < 0 ∨ ((a + ν - n : Nat) : ℝ) < 0 ∨ ((q + ν - b : Nat) : ℝ) < 0) := by
          simp only [not_or, not_lt]
          exact ⟨by positivity, by positivity, by positivity, by positivity, by positivity⟩
        rw [if_neg hneg, if_pos (by omega)]
        unfold gg
        rw [if_pos (by omega)]
        simp only [fact_nat]
        have f1 := fact_choose n ν hν'
        have f2 := fact_choose p (a - (n - ν)) (by omega)
        have f3 := fact_choose q (b - ν) (by omega)
        rw [← f1, ← f2, ← f3, show a + ν - n = a - (n - ν) by omega, show p + n - (a + ν) = p - (a - (n - ν)) by omega, show q + ν - b = q - (b - ν) by omega]
        field_simp
      · have hpos : ((n : ℝ) - ν < 0 ∨ ((p + n : Nat) : ℝ) - a - ν < 0 ∨ (b : ℝ) - ν < 0 ∨ (a : ℝ) - n + ν < 0 ∨ (q : ℝ) - b + ν < 0) := by
          by_contra hn
          simp only [not_or, not_lt] at hn
          obtain ⟨_, d2, d3, d4, d5⟩ := hn
          refine hc ⟨?_, ?_, ?_, ?_⟩
          · have : (a : ℝ) + ν ≤ (p + n : Nat) := by linarith
            exact_mod_cast this
          · have : (ν : ℝ) ≤ b := by linarith
            exact_mod_cast this
          · have : (n : ℝ) ≤ a + ν := by linarith
            exact_mod_cast this
          · have : (b : ℝ) ≤ q + ν := by linarith
            exact_mod_cast this
        rw [if_pos hpos, mul_zero]
        symm
        split
        · rename_i h
          have h0 : gg p q K (a - (n - ν)) (b - ν) = 0 := by
            rcases Nat.lt_or_ge p (a - (n - ν)) with h' | h'
            · exact gg_supp p q K _ _ (by omega)
            · exact gg_supp p q K _ _ (by omega)
          rw [h0, mul_zero]
        · rw [mul_zero]
    rw [mul_assoc, key]
  · have h1 : dn n (gg p q K) a b = 0 := by
      rw [dn_eq]
      refine sum_eq_zero fun ν hν => ?_
      have : sh (n - ν) ν (gg p q K) a b = 0 := by
        unfold sh gg
        split
        · rw [if_neg (by simp at hν; omega)]
        · rfl
      rw [this, mul_zero]
    rw [h1, mul_zero]
    unfold CG
    rw [if_pos]
    intro he
    apply hM
    have : (a : ℝ) + b = K + n := by push_cast at he; linarith
    exact_mod_cast this

/-- The coefficients are orthonormal. -/
theorem CG_ip (A B n n' K K' : Nat) (h1 : n ≤ A) (h2 : n ≤ B) (h1' : n' ≤ A) (h2' : n' ≤ B) (hK : K + 2 * n ≤ A + B) (hK' : K' + 2 * n' ≤ A + B) :
    ∑ a ∈ range (A + 1), ∑ b ∈ range (B + 1),
      CG (A / 2) (a - A / 2) (B / 2) (b - B / 2) ((A + B - 2 * n : Nat) / 2) (K - (A + B - 2 * n : Nat) / 2) *
      CG (A / 2) (a - A / 2) (B / 2) (b - B / 2) ((A + B - 2 * n' : Nat) / 2) (K' - (A + B - 2 * n' : Nat) / 2) =
    if n = n' ∧ K = K' then 1 else 0 := by
  have hpoly : ∀ n K : Nat, n ≤ A → n ≤ B → K + 2 * n ≤ A + B → ∀ a ∈ range (A + 1), ∀ b ∈ range (B + 1),
      CG (A / 2) (a - A / 2) (B / 2) (b - B / 2) ((A + B - 2 * n : Nat) / 2) (K - (A + B - 2 * n : Nat) / 2) =
        √(cN n (A - n) (B - n) K) * √(wgt A B a b) * dn n (gg (A - n) (B - n) K) a b := by
    intro n K h1 h2 hK a ha b hb
    have := CG_poly n (A - n) (B - n) K a b (by simp at ha; omega) (by simp at hb; omega) (by omega)
    rw [Nat.sub_add_cancel h1, Nat.sub_add_cancel h2, show A - n + (B - n) = A + B - 2 * n by omega] at this
    exact this
  have hterm : ∀ a ∈ range (A + 1), ∀ b ∈ range (B + 1),
      CG (A / 2) (a - A / 2) (B / 2) (b - B / 2) ((A + B - 2 * n : Nat) / 2) (K - (A + B - 2 * n : Nat) / 2) *
      CG (A / 2) (a - A / 2) (B / 2) (b - B / 2) ((A + B - 2 * n' : Nat) / 2) (K' - (A + B - 2 * n' : Nat) / 2) =
      √(cN n (A - n) (B - n) K) * √(cN n' (A - n') (B - n') K') * (dn n (gg (A - n) (B - n) K) a b * dn n' (gg (A - n') (B - n') K') a b *
        (a.factorial * (A - a).factorial * (b.factorial * (B - b).factorial))) := by
    intro a ha b hb
    rw [hpoly n K h1 h2 hK a ha b hb, hpoly n' K' h1' h2' hK' a ha b hb]
    have hw : √(wgt A B a b) * √(wgt A B a b) = a.factorial * (A - a).factorial * (b.factorial * (B - b).factorial) := Real.mul_self_sqrt (by unfold wgt; positivity)
    rw [← hw]; ring
  rw [sum_congr rfl fun a ha => sum_congr rfl (hterm a ha)]
  simp only [← mul_sum]
  have := ip_dn A B n n' K K' h1 h2 h1' h2'
  unfold ip at this
  rw [this]
  split
  · rename_i h
    obtain ⟨rfl, rfl⟩ := h
    rw [Real.mul_self_sqrt (by unfold cN; positivity)]
    unfold cN
    have hc := fact_choose (A - n + (B - n)) K (by omega)
    rw [Nat.factorial_succ (A - n + (B - n)), Nat.cast_mul, ← hc]
    have hch : ((A - n + (B - n)).choose K : ℝ) ≠ 0 := by
      have := Nat.choose_pos (show K ≤ A - n + (B - n) by omega)
      positivity
    push_cast
    field_simp
  · rw [mul_zero]

end AmpGen.Spin
