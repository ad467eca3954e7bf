import Verif.Spin.Lemmas
/-
C36 and C62 (Clebsch-Gordan coefficients), C35 (spin-orbit couplings).
-/
namespace AmpGen.Spin
open Finset

/-- C36.  For all spins and projections, a coefficient that is not zero has projections that add up, each projection within its spin, and spins that satisfy
the triangle rule. -/
theorem cg_selection_rules (j1 m1 j2 m2 J M : ℝ) (h : CG j1 m1 j2 m2 J M ≠ 0) :
    m1 + m2 = M ∧ |m1| ≤ j1 ∧ |m2| ≤ j2 ∧ |M| ≤ J ∧ Triangle j1 j2 J := by
  have hM : m1 + m2 = M := by
    by_contra hn
    exact h (by unfold CG; exact if_pos hn)
  subst hM
  refine ⟨rfl, ?_⟩
  rw [CG_eq] at h
  have hs : ∑ nu ∈ range (passes (j1 + j2 - J)), summand j1 m1 j2 m2 J nu ≠ 0 := fun h0 => h (by rw [h0, mul_zero])
  obtain ⟨nu, _, hnu⟩ := Finset.exists_ne_zero_of_sum_ne_zero hs
  unfold summand at hnu
  split at hnu
  · exact absurd rfl hnu
  · rename_i hc
    simp only [not_or, not_lt] at hc
    obtain ⟨h1, h2, h3, h4, h5⟩ := hc
    have h0 : (0 : ℝ) ≤ nu := Nat.cast_nonneg nu
    unfold Triangle
    simp only [abs_le]
    refine ⟨⟨?_, ?_⟩, ⟨?_, ?_⟩, ⟨?_, ?_⟩, ⟨?_, ?_⟩, ?_⟩ <;> linarith

/-- C62.  For all spins `j1` and `j2` that add up to `J` plus a whole number `n`: exchanging the two particles multiplies the coefficient by `(-1) ^ n`. -/
theorem cg_exchange (j1 m1 j2 m2 J M : ℝ) (n : Nat) (h : j1 + j2 - J = n) : CG j2 m2 j1 m1 J M = (-1) ^ n * CG j1 m1 j2 m2 J M := by
  by_cases hM : m1 + m2 = M
  · subst hM
    have e1 : CG j2 m2 j1 m1 J (m1 + m2) = CG j2 m2 j1 m1 J (m2 + m1) := by rw [add_comm m1 m2]
    rw [e1, CG_eq, CG_eq]
    have hn : normOf j2 m2 j1 m1 J = normOf j1 m1 j2 m2 J := by
      unfold normOf
      rw [show J + j2 - j1 = J - j1 + j2 by ring, show J - j2 + j1 = J + j1 - j2 by ring, show j2 + j1 - J = j1 + j2 - J by ring, add_comm m2 m1,
        show J + j2 + j1 + 1 = J + j1 + j2 + 1 by ring]
      ring
    rw [hn, show j2 + j1 - J = j1 + j2 - J by ring, h, passes_nat]
    have hsum : ∑ nu ∈ range (n + 1), summand j2 m2 j1 m1 J nu = (-1) ^ n * ∑ nu ∈ range (n + 1), summand j1 m1 j2 m2 J nu := by
      rw [← Finset.sum_range_reflect, Finset.mul_sum]
      apply Finset.sum_congr rfl
      intro nu hnu
      have hle : nu ≤ n := by have := Finset.mem_range.1 hnu; omega
      have hidx : n + 1 - 1 - nu = n - nu := by omega
      rw [hidx]
      have hc : ((n - nu : Nat) : ℝ) = j1 + j2 - J - nu := by rw [Nat.cast_sub hle, ← h]
      unfold summand
      rw [hc]
      have a1 : j2 + j1 - J - (j1 + j2 - J - (nu : ℝ)) = nu := by ring
      have a2 : j2 - m2 - (j1 + j2 - J - (nu : ℝ)) = J - j1 - m2 + nu := by ring
      have a3 : j1 + m1 - (j1 + j2 - J - (nu : ℝ)) = J - j2 + m1 + nu := by ring
      have a4 : J - j1 + m2 + (j1 + j2 - J - (nu : ℝ)) = j2 + m2 - nu := by ring
      have a5 : J - j2 - m1 + (j1 + j2 - J - (nu : ℝ)) = j1 - m1 - nu := by ring
      have a6 : (0 : ℝ) ≤ j1 + j2 - J - nu := by rw [← hc]; exact Nat.cast_nonneg _
      have a7 : (0 : ℝ) ≤ nu := Nat.cast_nonneg nu
      rw [a1, a2, a3, a4, a5]
      by_cases hb : j1 + j2 - J - (nu : ℝ) < 0 ∨ j1 - m1 - nu < 0 ∨ j2 + m2 - nu < 0 ∨ J - j2 + m1 + nu < 0 ∨ J - j1 - m2 + nu < 0
      · have hb' : (nu : ℝ) < 0 ∨ J - j1 - m2 + nu < 0 ∨ J - j2 + m1 + nu < 0 ∨ j2 + m2 - nu < 0 ∨ j1 - m1 - nu < 0 := by
          rcases hb with hb | hb | hb | hb | hb
          · linarith
          · right; right; right; right; exact hb
          · right; right; right; left; exact hb
          · right; right; left; exact hb
          · right; left; exact hb
        rw [if_pos hb, if_pos hb', mul_zero]
      · have hb' : ¬ ((nu : ℝ) < 0 ∨ J - j1 - m2 + nu < 0 ∨ J - j2 + m1 + nu < 0 ∨ j2 + m2 - nu < 0 ∨ j1 - m1 - nu < 0) := by
          simp only [not_or, not_lt] at hb ⊢
          exact ⟨a7, hb.2.2.2.2, hb.2.2.2.1, hb.2.2.1, hb.2.1⟩
        rw [if_neg hb, if_neg hb']
        have hpow : (-1 : ℝ) ^ (n - nu) = (-1) ^ n * (-1) ^ nu := by
          have : (-1 : ℝ) ^ n = (-1) ^ (n - nu) * (-1) ^ nu := by rw [← pow_add]; congr 1; omega
          rw [this, mul_assoc, ← pow_add, ← two_mul, pow_mul]
          norm_num
        rw [hpow, mul_div_assoc]
        congr 2
        ring
    rw [hsum]
    ring
  · have h1 : CG j2 m2 j1 m1 J M = 0 := by unfold CG; exact if_pos (by rw [add_comm]; exact hM)
    have h2 : CG j1 m1 j2 m2 J M = 0 := by unfold CG; exact if_pos hM
    rw [h1, h2, mul_zero]

/-- C62.  Reversing all projections multiplies the coefficient by `(-1) ^ n` too. -/
theorem cg_reversal (j1 m1 j2 m2 J M : ℝ) (n : Nat) (h : j1 + j2 - J = n) : CG j1 (-m1) j2 (-m2) J (-M) = (-1) ^ n * CG j1 m1 j2 m2 J M := by
  by_cases hM : m1 + m2 = M
  · subst hM
    have e1 : -(m1 + m2) = -m1 + -m2 := by ring
    rw [e1, CG_eq, CG_eq]
    have hn : normOf j1 (-m1) j2 (-m2) J = normOf j1 m1 j2 m2 J := by
      unfold normOf
      rw [show j1 + -m1 = j1 - m1 by ring, show j1 - -m1 = j1 + m1 by ring, show j2 + -m2 = j2 - m2 by ring, show j2 - -m2 = j2 + m2 by ring,
        show J + (-m1 + -m2) = J - (m1 + m2) by ring, show J - (-m1 + -m2) = J + (m1 + m2) by ring]
      ring
    rw [hn, h, passes_nat]
    have hsum : ∑ nu ∈ range (n + 1), summand j1 (-m1) j2 (-m2) J nu = (-1) ^ n * ∑ nu ∈ range (n + 1), summand j1 m1 j2 m2 J nu := by
      rw [← Finset.sum_range_reflect, Finset.mul_sum]
      apply Finset.sum_congr rfl
      intro nu hnu
      have hle : nu ≤ n := by have := Finset.mem_range.1 hnu; omega
      have hidx : n + 1 - 1 - nu = n - nu := by omega
      rw [hidx]
      have hc : ((n - nu : Nat) : ℝ) = j1 + j2 - J - nu := by rw [Nat.cast_sub hle, ← h]
      unfold summand
      rw [hc]
      have a1 : j1 + j2 - J - (j1 + j2 - J - (nu : ℝ)) = nu := by ring
      have a2 : j1 - -m1 - (j1 + j2 - J - (nu : ℝ)) = J - j2 + m1 + nu := by ring
      have a3 : j2 + -m2 - (j1 + j2 - J - (nu : ℝ)) = J - j1 - m2 + nu := by ring
      have a4 : J - j2 + -m1 + (j1 + j2 - J - (nu : ℝ)) = j1 - m1 - nu := by ring
      have a5 : J - j1 - -m2 + (j1 + j2 - J - (nu : ℝ)) = j2 + m2 - nu := by ring
      have a6 : (0 : ℝ) ≤ j1 + j2 - J - nu := by rw [← hc]; exact Nat.cast_nonneg _
      have a7 : (0 : ℝ) ≤ nu := Nat.cast_nonneg nu
      rw [a1, a2, a3, a4, a5]
      by_cases hb : j1 + j2 - J - (nu : ℝ) < 0 ∨ j1 - m1 - nu < 0 ∨ j2 + m2 - nu < 0 ∨ J - j2 + m1 + nu < 0 ∨ J - j1 - m2 + nu < 0
      · have hb' : (nu : ℝ) < 0 ∨ J - j2 + m1 + nu < 0 ∨ J - j1 - m2 + nu < 0 ∨ j1 - m1 - nu < 0 ∨ j2 + m2 - nu < 0 := by
          rcases hb with hb | hb | hb | hb | hb
          · linarith
          · right; right; right; left; exact hb
          · right; right; right; right; exact hb
          · right; left; exact hb
          · right; right; left; exact hb
        rw [if_pos hb, if_pos hb', mul_zero]
      · have hb' : ¬ ((nu : ℝ) < 0 ∨ J - j2 + m1 + nu < 0 ∨ J - j1 - m2 + nu < 0 ∨ j1 - m1 - nu < 0 ∨ j2 + m2 - nu < 0) := by
          simp only [not_or, not_lt] at hb ⊢
          exact ⟨a7, hb.2.2.2.1, hb.2.2.2.2, hb.2.1, hb.2.2.1⟩
        rw [if_neg hb, if_neg hb']
        have hpow : (-1 : ℝ) ^ (n - nu) = (-1) ^ n * (-1) ^ nu := by
          have : (-1 : ℝ) ^ n = (-1) ^ (n - nu) * (-1) ^ nu := by rw [← pow_add]; congr 1; omega
          rw [this, mul_assoc, ← pow_add, ← two_mul, pow_mul]
          norm_num
        rw [hpow, mul_div_assoc]
        congr 2
        ring
    rw [hsum]
    ring
  · have h1 : CG j1 (-m1) j2 (-m2) J (-M) = 0 := by unfold CG; exact if_pos (fun he => hM (by linarith))
    have h2 : CG j1 m1 j2 m2 J M = 0 := by unfold CG; exact if_pos hM
    rw [h1, h2, mul_zero]

/-- C62.  For all spins `a / 2` and `b / 2`, the coefficient of the state with the largest projections is one. -/
theorem cg_stretched (a b : Nat) : CG (a / 2) (a / 2) (b / 2) (b / 2) ((a + b) / 2) ((a + b) / 2) = 1 := by
  have e : ((a : ℝ) + b) / 2 = (a : ℝ) / 2 + (b : ℝ) / 2 := by ring
  rw [e, CG_eq]
  have h0 : (a : ℝ) / 2 + (b : ℝ) / 2 - ((a : ℝ) / 2 + (b : ℝ) / 2) = (0 : Nat) := by simp
  rw [h0, passes_nat]
  simp only [Nat.zero_add, Finset.sum_range_one]
  have z1 : (a : ℝ) / 2 - (a : ℝ) / 2 - ((0 : Nat) : ℝ) = (0 : Nat) := by simp
  have z2 : (b : ℝ) / 2 + (b : ℝ) / 2 - ((0 : Nat) : ℝ) = b := by simp
  have z3 : (a : ℝ) / 2 + (b : ℝ) / 2 - (b : ℝ) / 2 + (a : ℝ) / 2 + ((0 : Nat) : ℝ) = a := by simp
  have z4 : (a : ℝ) / 2 + (b : ℝ) / 2 - (a : ℝ) / 2 - (b : ℝ) / 2 + ((0 : Nat) : ℝ) = (0 : Nat) := by simp
  have z5 : (a : ℝ) / 2 + (b : ℝ) / 2 - ((a : ℝ) / 2 + (b : ℝ) / 2) - ((0 : Nat) : ℝ) = (0 : Nat) := by simp
  have ha : (0 : ℝ) ≤ a := Nat.cast_nonneg a
  have hb : (0 : ℝ) ≤ b := Nat.cast_nonneg b
  have hsum : summand (a / 2) (a / 2) (b / 2) (b / 2) (a / 2 + b / 2) 0 = 1 / ((a.factorial : ℝ) * b.factorial) := by
    unfold summand
    rw [z1, z2, z3, z4, z5, if_neg (by simp only [not_or, not_lt]; exact ⟨by simp, by simp, hb, ha, by simp⟩), fact_nat, fact_nat, fact_nat]
    simp [mul_comm]
  have hnorm : normOf (a / 2) (a / 2) (b / 2) (b / 2) (a / 2 + b / 2) = ((a.factorial : ℝ) * b.factorial) ^ 2 := by
    unfold normOf
    have n1 : (a : ℝ) / 2 + (b : ℝ) / 2 + (a : ℝ) / 2 - (b : ℝ) / 2 = a := by ring
    have n2 : (a : ℝ) / 2 + (b : ℝ) / 2 - (a : ℝ) / 2 + (b : ℝ) / 2 = b := by ring
    have n3 : (a : ℝ) / 2 + (a : ℝ) / 2 = a := by ring
    have n4 : (b : ℝ) / 2 + (b : ℝ) / 2 = b := by ring
    have n5 : (a : ℝ) / 2 - (a : ℝ) / 2 = (0 : Nat) := by simp
    have n6 : (b : ℝ) / 2 - (b : ℝ) / 2 = (0 : Nat) := by simp
    have n7 : (a : ℝ) / 2 + (b : ℝ) / 2 + ((a : ℝ) / 2 + (b : ℝ) / 2) = ((a + b : Nat) : ℝ) := by push_cast; ring
    have n8 : (a : ℝ) / 2 + (b : ℝ) / 2 + (a : ℝ) / 2 + (b : ℝ) / 2 + 1 = ((a + b + 1 : Nat) : ℝ) := by push_cast; ring
    have n9 : 2 * ((a : ℝ) / 2 + (b : ℝ) / 2) + 1 = ((a + b + 1 : Nat) : ℝ) := by push_cast; ring
    rw [n1, n2, n3, n4, n5, n6, n7, n8, n9, h0]
    simp only [fact_nat]
    rw [Nat.factorial_succ (a + b)]
    have p1 : ((a + b + 1 : Nat) : ℝ) ≠ 0 := by positivity
    have p2 : ((a + b).factorial : ℝ) ≠ 0 := by positivity
    simp only [Nat.factorial_zero, Nat.cast_one, mul_one, Nat.cast_mul]
    field_simp
  rw [hnorm, hsum, Real.sqrt_sq (by positivity)]
  field_simp

example : CG (1 / 2) (1 / 2) (1 / 2) (1 / 2) 1 1 ≠ 0 := by
  have := cg_stretched 1 1
  norm_num at this ⊢
  rw [this]
  norm_num

example : CG (1 / 2) (-(1 / 2)) 1 (-1) (3 / 2) (-(3 / 2)) = 1 := by
  have h1 := cg_stretched 1 2
  have h2 := cg_reversal (1 / 2) (1 / 2) 1 1 (3 / 2) (3 / 2) 0 (by norm_num)
  norm_num at h1 h2 ⊢
  rw [h2, h1]

/-- C35.  For all spins: the pairs `(L, S)` offered are those where `L` is a whole number, `S` runs from `|j1 - j2|` to `j1 + j2` in steps of one, `L`, `S` and `J`
satisfy the triangle rule, and parity is conserved where this is asked for; and each is offered once. -/
theorem spin_orbit_couplings (conserves : Nat → Bool) (conserveParity : Bool) (twoJ s1 s2 : Nat) :
    (∀ L S : ℚ, (L, S) ∈ spinOrbitCouplings conserves conserveParity twoJ s1 s2 ↔
      ∃ l k : Nat, L = l ∧ S = |(s1 : ℚ) / 2 - (s2 : ℚ) / 2| + k ∧ S ≤ (s1 : ℚ) / 2 + (s2 : ℚ) / 2 ∧ Triangle L S ((twoJ : ℚ) / 2) ∧
        (conserveParity = true → conserves l = true)) ∧
    (spinOrbitCouplings conserves conserveParity twoJ s1 s2).Nodup := by
  refine ⟨?_, nodup_couplings _ _ _ _ _⟩
  have hd : |(s1 : ℚ) / 2 - (s2 : ℚ) / 2| = ((((s1 : Int) - s2).natAbs : Nat) : ℚ) / 2 := by
    rw [← sub_div, abs_div, Nat.cast_natAbs]
    push_cast
    norm_num
  have hd0 : (0 : ℚ) ≤ |(s1 : ℚ) / 2 - (s2 : ℚ) / 2| := abs_nonneg _
  have hle : |(s1 : ℚ) / 2 - (s2 : ℚ) / 2| ≤ (s1 : ℚ) / 2 + (s2 : ℚ) / 2 := by
    rw [abs_le]
    have h1 : (0 : ℚ) ≤ s1 := Nat.cast_nonneg _
    have h2 : (0 : ℚ) ≤ s2 := Nat.cast_nonneg _
    constructor <;> linarith
  intro L S
  rw [mem_couplings]
  constructor
  · rintro ⟨l, k, _, _, h3, h4, h5, h6⟩
    rw [Prod.mk.injEq] at h6
    obtain ⟨rfl, rfl⟩ := h6
    rw [Nat.le_floor_iff (by linarith)] at h4
    refine ⟨l, k, rfl, rfl, by linarith, ?_, h3⟩
    rw [accept_iff (by positivity) (by positivity) (by positivity)] at h5
    unfold Triangle
    by_contra hn
    rw [if_neg hn] at h5
    exact h5 rfl
  · rintro ⟨l, k, rfl, rfl, h3, h4, h5⟩
    have hk : ((s1 : Int) - s2).natAbs + 2 * k ≤ s1 + s2 := by
      have h3' := h3
      rw [hd] at h3'
      have : ((((s1 : Int) - s2).natAbs + 2 * k : Nat) : ℚ) ≤ ((s1 + s2 : Nat) : ℚ) := by
        push_cast at h3' ⊢
        linarith
      exact_mod_cast this
    have ht := h4
    unfold Triangle at ht
    rw [hd, abs_le] at ht
    have hlo : ((twoJ : Int) - (((s1 : Int) - s2).natAbs + 2 * k : Nat)).natAbs ≤ 2 * l := by
      have h1 : ((twoJ : ℚ) : ℚ) ≤ ((2 * l + (((s1 : Int) - s2).natAbs + 2 * k) : Nat) : ℚ) := by
        push_cast at ht ⊢
        linarith [ht.2]
      have h2 : (((((s1 : Int) - s2).natAbs + 2 * k : Nat)) : ℚ) ≤ ((twoJ + 2 * l : Nat) : ℚ) := by
        push_cast at ht ⊢
        linarith [ht.1.1]
      have h1' : twoJ ≤ 2 * l + (((s1 : Int) - s2).natAbs + 2 * k) := by exact_mod_cast h1
      have h2' : ((s1 : Int) - s2).natAbs + 2 * k ≤ twoJ + 2 * l := by exact_mod_cast h2
      omega
    have hhi : 2 * l ≤ twoJ + (s1 + s2) := by
      have h1 : ((2 * l : Nat) : ℚ) ≤ ((twoJ + (((s1 : Int) - s2).natAbs + 2 * k) : Nat) : ℚ) := by
        push_cast at ht ⊢
        linarith [ht.1.2]
      have h1' : 2 * l ≤ twoJ + (((s1 : Int) - s2).natAbs + 2 * k) := by exact_mod_cast h1
      omega
    obtain ⟨b1, b2⟩ := orbitalRange_bounds conserves conserveParity twoJ s1 s2 l k hk hlo hhi h5
    refine ⟨l, k, b1, b2, h5, ?_, ?_, rfl⟩
    · rw [Nat.le_floor_iff (by linarith)]
      linarith
    · unfold Triangle at h4
      rw [accept_iff (by positivity) (by positivity) (by positivity), if_pos h4]
      decide

/-- C35.  If twice the spins of the three particles add up to an even number, the pairs offered can be coupled to `J`: it is one of `|L - S|, |L - S| + 1, ..., L + S`. -/
theorem spin_orbit_integral (conserves : Nat → Bool) (conserveParity : Bool) (twoJ s1 s2 : Nat) (h : 2 ∣ twoJ + s1 + s2) (L S : ℚ)
    (hm : (L, S) ∈ spinOrbitCouplings conserves conserveParity twoJ s1 s2) : ∃ n : Nat, (twoJ : ℚ) / 2 = |L - S| + n := by
  obtain ⟨l, k, rfl, rfl, _, ht, _⟩ := ((spin_orbit_couplings conserves conserveParity twoJ s1 s2).1 L S).1 hm
  have hd : |(s1 : ℚ) / 2 - (s2 : ℚ) / 2| = ((((s1 : Int) - s2).natAbs : Nat) : ℚ) / 2 := by
    rw [← sub_div, abs_div, Nat.cast_natAbs]
    push_cast
    norm_num
  have ht' := ht.1
  rw [hd] at ht' ⊢
  have habs : |(l : ℚ) - ((((s1 : Int) - s2).natAbs : ℚ) / 2 + k)| = ((((2 * l : Int) - (((s1 : Int) - s2).natAbs + 2 * k)).natAbs : Nat) : ℚ) / 2 := by
    rw [Nat.cast_natAbs]
    push_cast
    rw [show (l : ℚ) - (|(s1 : ℚ) - s2| / 2 + k) = (2 * l - (|(s1 : ℚ) - s2| + 2 * k)) / 2 by ring, abs_div]
    norm_num
  rw [habs] at ht' ⊢
  have hle : ((2 * l : Int) - (((s1 : Int) - s2).natAbs + 2 * k)).natAbs ≤ twoJ := by
    have : ((((2 * l : Int) - (((s1 : Int) - s2).natAbs + 2 * k)).natAbs : Nat) : ℚ) ≤ twoJ := by linarith
    exact_mod_cast this
  refine ⟨(twoJ - ((2 * l : Int) - (((s1 : Int) - s2).natAbs + 2 * k)).natAbs) / 2, ?_⟩
  obtain ⟨n, hn⟩ : ∃ n, twoJ = ((2 * l : Int) - (((s1 : Int) - s2).natAbs + 2 * k)).natAbs + 2 * n := by
    refine ⟨(twoJ - ((2 * l : Int) - (((s1 : Int) - s2).natAbs + 2 * k)).natAbs) / 2, ?_⟩
    omega
  have e : (twoJ - ((2 * l : Int) - (((s1 : Int) - s2).natAbs + 2 * k)).natAbs) / 2 = n := by omega
  rw [e]
  have hn' : (twoJ : ℚ) = ((((2 * l : Int) - (((s1 : Int) - s2).natAbs + 2 * k)).natAbs : Nat) : ℚ) + 2 * n := by exact_mod_cast hn
  rw [hn']
  ring

example : ((1 : ℚ), (1 : ℚ)) ∈ spinOrbitCouplings (fun _ => true) false 2 2 0 :=
  ((spin_orbit_couplings (fun _ => true) false 2 2 0).1 1 1).2 ⟨1, 0, by norm_num, by norm_num, by norm_num, by unfold Triangle; norm_num, by simp⟩

end AmpGen.Spin
