import Verif.Cubature.LemmasMono
/-
The rule on polynomials: helper lemmas.
-/
namespace AmpGen.Cubature
open Spec
variable {n : ℕ}

theorem ideal_tables (hn : 2 ≤ n) :
    ideal.wn1 (n - 2) = (12824 - 9120 * n + 400 * n ^ 2) / 19683 ∧ ideal.wn3 (n - 2) = (1820 - 400 * n) / 19683 ∧
      ideal.wn5 (n - 2) = 6859 / 19683 / 2 ^ n ∧ ideal.wpn1 (n - 2) = (729 - 950 * n + 50 * n ^ 2) / 729 ∧
      ideal.wpn3 (n - 2) = (265 - 100 * n) / 1458 := by
  have e : ((n - 2 : ℕ) : ℝ) + 2 = n := by
    rw [Nat.cast_sub hn]
    push_cast
    ring
  have e2 : n - 2 + 2 = n := by omega
  simp only [ideal, e, e2, and_self]

/-- The axes that take part in a product of even powers. -/
theorem few_axes (α : Fin n → ℕ) (he : ∀ i, Even (α i)) (d : ℕ) (hd : ∑ i, α i ≤ d) (hd7 : d ≤ 7) :
    (∀ i, α i = 0) ∨ (∃ p, (∀ i, i ≠ p → α i = 0) ∧ α p ≠ 0 ∧ α p ≤ d) ∨
      (∃ p q, p ≠ q ∧ (∀ i, i ≠ p → i ≠ q → α i = 0) ∧ α p ≠ 0 ∧ α q ≠ 0 ∧ α p + α q ≤ d) ∨
      ∃ p q r, p ≠ q ∧ p ≠ r ∧ q ≠ r ∧ (∀ i, i ≠ p → i ≠ q → i ≠ r → α i = 0) ∧ α p ≠ 0 ∧ α q ≠ 0 ∧ α r ≠ 0 ∧ α p + α q + α r ≤ d := by
  obtain ⟨T, hT⟩ : ∃ T : Finset (Fin n), Finset.univ.filter (fun i => α i ≠ 0) = T := ⟨_, rfl⟩
  have hmem : ∀ i, i ∈ T ↔ α i ≠ 0 := by intro i; rw [← hT]; simp
  have hsum : ∑ i ∈ T, α i ≤ d := (Finset.sum_le_sum_of_subset (Finset.subset_univ T)).trans hd
  have h2 : ∀ i ∈ T, 2 ≤ α i := by
    intro i hi
    have h0 := (hmem i).1 hi
    obtain ⟨k, hk⟩ := he i
    omega
  have hcard : T.card * 2 ≤ ∑ i ∈ T, α i := by
    have := Finset.card_nsmul_le_sum T α 2 h2
    simpa using this
  have : T.card ≤ 3 := by omega
  have hout : ∀ i, i ∉ T → α i = 0 := by
    intro i hi
    by_contra h
    exact hi ((hmem i).2 h)
  have hc : T.card = 0 ∨ T.card = 1 ∨ T.card = 2 ∨ T.card = 3 := by omega
  rcases hc with h | h | h | h
  · rw [Finset.card_eq_zero] at h
    exact .inl fun i => hout i (by rw [h]; exact Finset.notMem_empty i)
  · obtain ⟨p, hp⟩ := Finset.card_eq_one.1 h
    refine .inr (.inl ⟨p, fun i hi => hout i (by rw [hp]; simpa using hi), (hmem p).1 (by rw [hp]; simp), ?_⟩)
    rw [hp, Finset.sum_singleton] at hsum
    exact hsum
  · obtain ⟨p, q, hpq, hp⟩ := Finset.card_eq_two.1 h
    refine .inr (.inr (.inl ⟨p, q, hpq, fun i h1 h2 => hout i (by rw [hp]; simp [h1, h2]), (hmem p).1 (by rw [hp]; simp), (hmem q).1 (by rw [hp]; simp), ?_⟩))
    rw [hp, Finset.sum_pair hpq] at hsum
    exact hsum
  · obtain ⟨p, q, r, hpq, hpr, hqr, hp⟩ := Finset.card_eq_three.1 h
    refine .inr (.inr (.inr ⟨p, q, r, hpq, hpr, hqr, fun i h1 h2 h3 => hout i (by rw [hp]; simp [h1, h2, h3]), (hmem p).1 (by rw [hp]; simp),
      (hmem q).1 (by rw [hp]; simp), (hmem r).1 (by rw [hp]; simp), ?_⟩))
    rw [hp, Finset.sum_insert (by simp [hpq, hpr]), Finset.sum_pair hqr] at hsum
    omega

theorem rgnval_mono (hn : 2 ≤ n) (a b : Fin n → ℝ) (α : Fin n → ℕ) (h : ∑ i, α i ≤ 7) :
    rgnval ideal (mono a α) a b = rgnvol b * mean b α := by
  obtain ⟨t1, t3, t5, -, -⟩ := ideal_tables hn
  obtain ⟨q2, q4, q5⟩ := ideal_sq
  have w2 : ideal.w2 = 980 / 6561 := rfl
  have w4 : ideal.w4 = 200 / 19683 := rfl
  have h2n : (2 : ℝ) ^ n ≠ 0 := by positivity
  unfold rgnval
  congr 1
  rw [t1, t3, t5, w2, w4]
  by_cases ho : ∃ p, Odd (α p)
  · obtain ⟨p, hp⟩ := ho
    obtain ⟨s1, s2, s3, s4, s5, sm⟩ := sums_odd ideal a b α p hp
    rw [s1, s2, s3, s4, s5, sm]
    ring
  simp only [not_exists, Nat.not_odd_iff_even] at ho
  rcases few_axes α ho 7 h le_rfl with h0 | ⟨p, h0, hp, hd⟩ | ⟨p, q, hpq, h0, hp, hq, hd⟩ | ⟨p, q, r, hpq, hpr, hqr, h0, hp, hq, hr, hd⟩
  · obtain ⟨s1, s2, s3, s4, s5, sm⟩ := sums_none ideal a b α h0
    rw [s1, s2, s3, s4, s5, sm]
    field_simp
    ring
  · obtain ⟨s1, s2, s3, s4, s5, sm⟩ := sums_one ideal a b α p h0 hp (ho p)
    rw [s1, s2, s3, s4, s5, sm]
    have hcase : α p = 2 ∨ α p = 4 ∨ α p = 6 := by
      obtain ⟨k, hk⟩ := ho p
      omega
    have e5 : ∀ x : ℝ, 6859 / 19683 / 2 ^ n * (2 ^ n * x) = 6859 / 19683 * x := by
      intro x
      field_simp
    rw [e5]
    rcases hcase with e | e | e <;> rw [e]
    · rw [q2, q4, q5]
      push_cast
      ring
    · simp only [show (4 : ℕ) = 2 * 2 from rfl, pow_mul, q2, q4, q5]
      push_cast
      ring
    · simp only [show (6 : ℕ) = 2 * 3 from rfl, pow_mul, q2, q4, q5]
      push_cast
      ring
  · obtain ⟨s1, s2, s3, s4, s5, sm⟩ := sums_two ideal a b α p q hpq h0 hp hq (ho p) (ho q)
    rw [s1, s2, s3, s4, s5, sm]
    have e5 : ∀ x : ℝ, 6859 / 19683 / 2 ^ n * (2 ^ n * x) = 6859 / 19683 * x := by
      intro x
      field_simp
    rw [e5]
    have hcase : (α p = 2 ∧ α q = 2) ∨ (α p = 4 ∧ α q = 2) ∨ (α p = 2 ∧ α q = 4) := by
      obtain ⟨k, hk⟩ := ho p
      obtain ⟨l, hl⟩ := ho q
      omega
    have f4 : ideal.xl4 ^ 4 = 81 / 100 := by rw [show (4 : ℕ) = 2 * 2 from rfl, pow_mul, q4]; norm_num
    have f5 : ideal.xl5 ^ 4 = 81 / 361 := by rw [show (4 : ℕ) = 2 * 2 from rfl, pow_mul, q5]; norm_num
    rcases hcase with ⟨e, e'⟩ | ⟨e, e'⟩ | ⟨e, e'⟩ <;> rw [e, e'] <;> simp only [q4, q5, f4, f5] <;> push_cast <;> ring
  · obtain ⟨s1, s2, s3, s4, s5, sm⟩ := sums_three ideal a b α p q r hpq hpr hqr h0 hp hq hr (ho p) (ho q) (ho r)
    rw [s1, s2, s3, s4, s5, sm]
    have e5 : ∀ x : ℝ, 6859 / 19683 / 2 ^ n * (2 ^ n * x) = 6859 / 19683 * x := by
      intro x
      field_simp
    rw [e5]
    have hcase : α p = 2 ∧ α q = 2 ∧ α r = 2 := by
      obtain ⟨k, hk⟩ := ho p
      obtain ⟨l, hl⟩ := ho q
      obtain ⟨m, hm⟩ := ho r
      omega
    obtain ⟨e, e', e''⟩ := hcase
    rw [e, e', e'', q5]
    push_cast
    ring

theorem rgncmp_mono (hn : 2 ≤ n) (a b : Fin n → ℝ) (α : Fin n → ℕ) (h : ∑ i, α i ≤ 5) :
    rgncmp ideal (mono a α) a b = rgnvol b * mean b α := by
  obtain ⟨-, -, -, t1, t3⟩ := ideal_tables hn
  obtain ⟨q2, q4, q5⟩ := ideal_sq
  have w2 : ideal.wp2 = 245 / 486 := rfl
  have w4 : ideal.wp4 = 25 / 729 := rfl
  unfold rgncmp
  congr 1
  rw [t1, t3, w2, w4]
  by_cases ho : ∃ p, Odd (α p)
  · obtain ⟨p, hp⟩ := ho
    obtain ⟨s1, s2, s3, s4, s5, sm⟩ := sums_odd ideal a b α p hp
    rw [s1, s2, s3, s4, sm]
    ring
  simp only [not_exists, Nat.not_odd_iff_even] at ho
  rcases few_axes α ho 5 h (by norm_num) with h0 | ⟨p, h0, hp, hd⟩ | ⟨p, q, hpq, h0, hp, hq, hd⟩ | ⟨p, q, r, hpq, hpr, hqr, h0, hp, hq, hr, hd⟩
  · obtain ⟨s1, s2, s3, s4, s5, sm⟩ := sums_none ideal a b α h0
    rw [s1, s2, s3, s4, sm]
    ring
  · obtain ⟨s1, s2, s3, s4, s5, sm⟩ := sums_one ideal a b α p h0 hp (ho p)
    rw [s1, s2, s3, s4, sm]
    have hcase : α p = 2 ∨ α p = 4 := by
      obtain ⟨k, hk⟩ := ho p
      omega
    rcases hcase with e | e <;> rw [e]
    · rw [q2, q4]
      push_cast
      ring
    · simp only [show (4 : ℕ) = 2 * 2 from rfl, pow_mul, q2, q4]
      push_cast
      ring
  · obtain ⟨s1, s2, s3, s4, s5, sm⟩ := sums_two ideal a b α p q hpq h0 hp hq (ho p) (ho q)
    rw [s1, s2, s3, s4, sm]
    have hcase : α p = 2 ∧ α q = 2 := by
      obtain ⟨k, hk⟩ := ho p
      obtain ⟨l, hl⟩ := ho q
      omega
    obtain ⟨e, e'⟩ := hcase
    rw [e, e', q4]
    push_cast
    ring
  · obtain ⟨k, hk⟩ := ho p
    obtain ⟨l, hl⟩ := ho q
    obtain ⟨m, hm⟩ := ho r
    omega

/-! ### The integral of a product of powers -/

theorem integral_pow_sub (a b : ℝ) (hb : 0 ≤ b) (k : ℕ) :
    ∫ x in Set.Icc (a - b) (a + b), (x - a) ^ k = b * (b ^ k * (1 + (-1) ^ k) / (k + 1)) := by
  rw [MeasureTheory.integral_Icc_eq_integral_Ioc, ← intervalIntegral.integral_of_le (by linarith)]
  rw [intervalIntegral.integral_comp_sub_right (fun x => x ^ k) a, integral_pow]
  have e1 : a + b - a = b := by ring
  have e2 : a - b - a = -b := by ring
  rw [e1, e2, neg_pow b (k + 1)]
  have : ((k : ℝ) + 1) ≠ 0 := by positivity
  field_simp
  ring

theorem integral_mono (B : Box n) (hB : ∀ i, 0 ≤ B.half i) (α : Fin n → ℕ) : B.integral (mono B.mid α) = rgnvol B.half * mean B.half α := by
  unfold Box.integral Box.points mono
  rw [← MeasureTheory.integral_indicator measurableSet_Icc]
  have e : (Set.Icc (B.mid - B.half) (B.mid + B.half)).indicator (fun x => ∏ i, (x i - B.mid i) ^ α i) =
      fun x => ∏ i, (Set.Icc (B.mid i - B.half i) (B.mid i + B.half i)).indicator (fun y => (y - B.mid i) ^ α i) (x i) := by
    funext x
    by_cases hx : x ∈ Set.Icc (B.mid - B.half) (B.mid + B.half)
    · rw [Set.indicator_of_mem hx]
      refine Finset.prod_congr rfl fun i _ => ?_
      rw [Set.indicator_of_mem (show x i ∈ Set.Icc (B.mid i - B.half i) (B.mid i + B.half i) from ⟨hx.1 i, hx.2 i⟩)]
    · rw [Set.indicator_of_notMem hx]
      have : ∃ i, x i ∉ Set.Icc (B.mid i - B.half i) (B.mid i + B.half i) := by
        by_contra hcon
        simp only [not_exists, not_not] at hcon
        exact hx ⟨fun i => (hcon i).1, fun i => (hcon i).2⟩
      obtain ⟨i, hi⟩ := this
      exact (Finset.prod_eq_zero (Finset.mem_univ i) (Set.indicator_of_notMem hi _)).symm
  rw [e, MeasureTheory.integral_fintype_prod_volume_eq_prod
    (fun i => (Set.Icc (B.mid i - B.half i) (B.mid i + B.half i)).indicator (fun y => (y - B.mid i) ^ α i))]
  unfold rgnvol mean
  rw [mul_assoc, ← Finset.prod_mul_distrib, show (2 : ℝ) ^ n = ∏ _i : Fin n, (2 : ℝ) by simp, ← Finset.prod_mul_distrib]
  refine Finset.prod_congr rfl fun i _ => ?_
  rw [MeasureTheory.integral_indicator measurableSet_Icc, integral_pow_sub _ _ (hB i)]
  have : ((α i : ℝ) + 1) ≠ 0 := by positivity
  field_simp

end AmpGen.Cubature
