import Verif.Cubature.LemmasRule
import Mathlib.Algebra.BigOperators.Intervals
/-
The rule is exact on products of powers: helper lemmas.
-/
namespace AmpGen.Cubature
open Spec
variable {n : ℕ}

/-- The sum over the two signs of a power. -/
def both (l : ℝ) (b : Fin n → ℝ) (α : Fin n → ℕ) (i : Fin n) : ℝ := (-(l * b i)) ^ α i + (l * b i) ^ α i

theorem both_odd (l : ℝ) (b : Fin n → ℝ) (α : Fin n → ℕ) (i : Fin n) (h : Odd (α i)) : both l b α i = 0 := by
  unfold both
  rw [h.neg_pow]
  ring

theorem both_even (l : ℝ) (b : Fin n → ℝ) (α : Fin n → ℕ) (i : Fin n) (h : Even (α i)) : both l b α i = 2 * (l ^ α i * b i ^ α i) := by
  unfold both
  rw [h.neg_pow, mul_pow]
  ring

theorem both_zero (l : ℝ) (b : Fin n → ℝ) (α : Fin n → ℕ) (i : Fin n) (h : α i = 0) : both l b α i = 2 := by
  unfold both
  rw [h]
  norm_num

theorem sum2_mono (c : Consts) (a b : Fin n → ℝ) (α : Fin n → ℕ) :
    sum2 c (mono a α) a b = ∑ j, if ∀ i, i ≠ j → α i = 0 then both c.xl2 b α j else 0 := by
  unfold sum2 f2 eval
  refine Finset.sum_congr rfl fun j _ => ?_
  rw [mono_update, mono_update]
  split
  · unfold both; rw [neg_mul]
  · ring

theorem sum3_mono (c : Consts) (a b : Fin n → ℝ) (α : Fin n → ℕ) :
    sum3 c (mono a α) a b = ∑ j, if ∀ i, i ≠ j → α i = 0 then both c.xl4 b α j else 0 := by
  unfold sum3 f3 eval
  refine Finset.sum_congr rfl fun j _ => ?_
  rw [mono_update, mono_update]
  split
  · unfold both; rw [neg_mul]
  · ring

/-- What the code adds for a pair of axes. -/
def pair (l : ℝ) (b : Fin n → ℝ) (α : Fin n → ℕ) (j k : Fin n) : ℝ :=
  if ∀ i, i ≠ j → i ≠ k → α i = 0 then both l b α j * both l b α k else 0

theorem pair_comm (l : ℝ) (b : Fin n → ℝ) (α : Fin n → ℕ) (j k : Fin n) : pair l b α j k = pair l b α k j := by
  unfold pair
  rw [mul_comm]
  congr 1
  exact propext ⟨fun h i h1 h2 => h i h2 h1, fun h i h1 h2 => h i h2 h1⟩

theorem sum4_mono (c : Consts) (a b : Fin n → ℝ) (α : Fin n → ℕ) :
    2 * sum4 c (mono a α) a b = ∑ j, ∑ k, if j = k then 0 else pair c.xl4 b α j k := by
  have h1 : sum4 c (mono a α) a b = ∑ j, ∑ k, if j < k then pair c.xl4 b α j k else 0 := by
    unfold sum4 eval2
    refine Finset.sum_congr rfl fun j _ => Finset.sum_congr rfl fun k _ => ?_
    split
    · rename_i hjk
      simp only [mono_update2 a α j k hjk.ne]
      unfold pair both
      split
      · rw [neg_mul, neg_mul]; ring
      · ring
    · rfl
  have h2 : sum4 c (mono a α) a b = ∑ j, ∑ k, if k < j then pair c.xl4 b α j k else 0 := by
    rw [h1, Finset.sum_comm]
    refine Finset.sum_congr rfl fun j _ => Finset.sum_congr rfl fun k _ => ?_
    rw [pair_comm]
  rw [two_mul]
  nth_rewrite 1 [h1]
  rw [h2, ← Finset.sum_add_distrib]
  refine Finset.sum_congr rfl fun j _ => ?_
  rw [← Finset.sum_add_distrib]
  refine Finset.sum_congr rfl fun k _ => ?_
  rcases lt_trichotomy j k with h | h | h
  · rw [if_pos h, if_neg h.asymm, if_neg h.ne, add_zero]
  · subst h; simp
  · rw [if_neg h.asymm, if_pos h, if_neg h.ne', zero_add]

theorem sum5_both (c : Consts) (a b : Fin n → ℝ) (α : Fin n → ℕ) : sum5 c (mono a α) a b = ∏ i, both c.xl5 b α i := sum5_mono c a b α

theorem sum1_mono (a : Fin n → ℝ) (α : Fin n → ℕ) : sum1 (mono a α) a = if ∀ i, α i = 0 then 1 else 0 := by
  unfold sum1 mono
  split
  · rename_i h
    exact Finset.prod_eq_one fun i _ => by rw [h i, pow_zero]
  · rename_i h
    simp only [not_forall] at h
    obtain ⟨i, hi⟩ := h
    exact Finset.prod_eq_zero (Finset.mem_univ i) (by rw [sub_self, zero_pow hi])

/-- The mean of the product of powers over the box. -/
noncomputable def mean (b : Fin n → ℝ) (α : Fin n → ℕ) : ℝ := ∏ i, (b i ^ α i * (1 + (-1) ^ α i) / (2 * (α i + 1)))

theorem ideal_sq : ideal.xl2 ^ 2 = 9 / 70 ∧ ideal.xl4 ^ 2 = 9 / 10 ∧ ideal.xl5 ^ 2 = 9 / 19 :=
  ⟨Real.sq_sqrt (by norm_num), Real.sq_sqrt (by norm_num), Real.sq_sqrt (by norm_num)⟩

/-- The sums for each number of axes that take part. -/
theorem sums_odd (c : Consts) (a b : Fin n → ℝ) (α : Fin n → ℕ) (p : Fin n) (hp : Odd (α p)) :
    sum1 (mono a α) a = 0 ∧ sum2 c (mono a α) a b = 0 ∧ sum3 c (mono a α) a b = 0 ∧ sum4 c (mono a α) a b = 0 ∧ sum5 c (mono a α) a b = 0 ∧
      mean b α = 0 := by
  have h0 : α p ≠ 0 := by rintro h; rw [h] at hp; exact absurd hp (by decide)
  refine ⟨?_, ?_, ?_, ?_, ?_, ?_⟩
  · rw [sum1_mono, if_neg (fun h => h0 (h p))]
  · rw [sum2_mono]
    refine Finset.sum_eq_zero fun j _ => ?_
    split
    · rename_i h
      by_cases hj : p = j
      · rw [← hj]; exact both_odd _ _ _ _ hp
      · exact absurd (h p hj) h0
    · rfl
  · rw [sum3_mono]
    refine Finset.sum_eq_zero fun j _ => ?_
    split
    · rename_i h
      by_cases hj : p = j
      · rw [← hj]; exact both_odd _ _ _ _ hp
      · exact absurd (h p hj) h0
    · rfl
  · have := sum4_mono c a b α
    rw [Finset.sum_eq_zero] at this
    · linarith
    intro j _
    refine Finset.sum_eq_zero fun k _ => ?_
    split
    · rfl
    · unfold pair
      split
      · rename_i h
        by_cases hj : p = j
        · rw [← hj, both_odd _ _ _ _ hp, zero_mul]
        · by_cases hk : p = k
          · rw [← hk, both_odd _ _ _ _ hp, mul_zero]
          · exact absurd (h p hj hk) h0
      · rfl
  · rw [sum5_both]
    exact Finset.prod_eq_zero (Finset.mem_univ p) (both_odd _ _ _ _ hp)
  · refine Finset.prod_eq_zero (Finset.mem_univ p) ?_
    rw [hp.neg_one_pow]
    simp

theorem sums_none (c : Consts) (a b : Fin n → ℝ) (α : Fin n → ℕ) (h : ∀ i, α i = 0) :
    sum1 (mono a α) a = 1 ∧ sum2 c (mono a α) a b = 2 * n ∧ sum3 c (mono a α) a b = 2 * n ∧ sum4 c (mono a α) a b = 2 * (n * (n - 1)) ∧
      sum5 c (mono a α) a b = 2 ^ n ∧ mean b α = 1 := by
  refine ⟨?_, ?_, ?_, ?_, ?_, ?_⟩
  · rw [sum1_mono, if_pos h]
  · rw [sum2_mono]
    have : ∀ j, (if ∀ i, i ≠ j → α i = 0 then both c.xl2 b α j else 0) = 2 := by
      intro j
      rw [if_pos fun i _ => h i, both_zero _ _ _ _ (h j)]
    rw [Finset.sum_congr rfl fun j _ => this j]
    simp [mul_comm]
  · rw [sum3_mono]
    have : ∀ j, (if ∀ i, i ≠ j → α i = 0 then both c.xl4 b α j else 0) = 2 := by
      intro j
      rw [if_pos fun i _ => h i, both_zero _ _ _ _ (h j)]
    rw [Finset.sum_congr rfl fun j _ => this j]
    simp [mul_comm]
  · have := sum4_mono c a b α
    have e : ∀ j k : Fin n, (if j = k then 0 else pair c.xl4 b α j k) = 4 - if j = k then 4 else 0 := by
      intro j k
      split
      · ring
      · unfold pair
        rw [if_pos fun i _ _ => h i, both_zero _ _ _ _ (h j), both_zero _ _ _ _ (h k)]
        norm_num
    rw [Finset.sum_congr rfl fun j _ => Finset.sum_congr rfl fun k _ => e j k] at this
    simp only [Finset.sum_sub_distrib, Finset.sum_ite_eq, Finset.mem_univ, if_true, Finset.sum_const, Finset.card_univ, Fintype.card_fin,
      nsmul_eq_mul] at this
    linear_combination this / 2
  · rw [sum5_both, Finset.prod_congr rfl fun i _ => both_zero _ _ _ _ (h i)]
    simp
  · unfold mean
    refine Finset.prod_eq_one fun i _ => ?_
    rw [h i]
    norm_num

theorem prod_one_axis (f : Fin n → ℝ) (p : Fin n) (v : ℝ) (h : ∀ i, i ≠ p → f i = v) : ∏ i, f i = f p * v ^ (n - 1) := by
  rw [← Finset.mul_prod_erase Finset.univ f (Finset.mem_univ p), Finset.prod_congr rfl fun i hi => h i (Finset.ne_of_mem_erase hi)]
  simp

theorem sums_one (c : Consts) (a b : Fin n → ℝ) (α : Fin n → ℕ) (p : Fin n) (h : ∀ i, i ≠ p → α i = 0) (hp : α p ≠ 0) (he : Even (α p)) :
    sum1 (mono a α) a = 0 ∧ sum2 c (mono a α) a b = 2 * (c.xl2 ^ α p * b p ^ α p) ∧ sum3 c (mono a α) a b = 2 * (c.xl4 ^ α p * b p ^ α p) ∧
      sum4 c (mono a α) a b = 4 * (n - 1) * (c.xl4 ^ α p * b p ^ α p) ∧
      sum5 c (mono a α) a b = 2 ^ n * (c.xl5 ^ α p * b p ^ α p) ∧ mean b α = b p ^ α p / (α p + 1) := by
  have single : ∀ l : ℝ, (∑ j, if ∀ i, i ≠ j → α i = 0 then both l b α j else 0) = 2 * (l ^ α p * b p ^ α p) := by
    intro l
    rw [Finset.sum_eq_single p]
    · rw [if_pos h, both_even _ _ _ _ he]
    · intro j _ hj
      rw [if_neg fun hh => hp (hh p (Ne.symm hj))]
    · intro hh; exact absurd (Finset.mem_univ p) hh
  refine ⟨?_, ?_, ?_, ?_, ?_, ?_⟩
  · rw [sum1_mono, if_neg fun hh => hp (hh p)]
  · rw [sum2_mono, single]
  · rw [sum3_mono, single]
  · have := sum4_mono c a b α
    have e : ∀ j k : Fin n, (if j = k then 0 else pair c.xl4 b α j k) =
        (4 * (c.xl4 ^ α p * b p ^ α p)) * ((if j = p then 1 else 0) + (if k = p then 1 else 0) - 2 * (if j = p then (if k = p then 1 else 0) else 0)) := by
      intro j k
      by_cases hjp : j = p
      · subst hjp
        by_cases hkp : k = j
        · subst hkp; simp; norm_num
        · rw [if_neg (Ne.symm hkp), if_pos rfl, if_neg hkp, if_pos rfl]
          unfold pair
          rw [if_pos fun i hi _ => h i hi, both_even _ _ _ _ he, both_zero _ _ _ _ (h k hkp)]
          ring
      · rw [if_neg hjp, if_neg hjp]
        by_cases hkp : k = p
        · subst hkp
          rw [if_neg hjp, if_pos rfl]
          unfold pair
          rw [if_pos fun i _ hi => h i hi, both_even _ _ _ _ he, both_zero _ _ _ _ (h j hjp)]
          ring
        · rw [if_neg hkp]
          unfold pair
          have hn : ¬ ∀ i, i ≠ j → i ≠ k → α i = 0 := fun hh => hp (hh p (Ne.symm hjp) (Ne.symm hkp))
          rw [if_neg hn]
          simp
    rw [Finset.sum_congr rfl fun j _ => Finset.sum_congr rfl fun k _ => e j k] at this
    simp only [← Finset.mul_sum, Finset.sum_sub_distrib, Finset.sum_add_distrib, Finset.sum_ite_eq', Finset.mem_univ, if_true, Finset.sum_const,
      Finset.card_univ, Fintype.card_fin, nsmul_eq_mul, ← Finset.sum_ite_irrel] at this
    have e2 : ∀ j : Fin n, (∑ k : Fin n, if j = p then (if k = p then (1 : ℝ) else 0) else 0) = if j = p then 1 else 0 := by
      intro j
      split
      · simp
      · simp
    simp only [e2, Finset.sum_ite_eq', Finset.mem_univ, if_true] at this
    linear_combination this / 2
  · rw [sum5_both, prod_one_axis _ p 2 fun i hi => both_zero _ _ _ _ (h i hi), both_even _ _ _ _ he]
    have hn : (2 : ℝ) ^ n = 2 ^ (n - 1) * 2 := by
      rw [← pow_succ]
      congr 1
      have := p.2
      omega
    rw [hn]
    ring
  · unfold mean
    rw [prod_one_axis _ p 1 fun i hi => by rw [h i hi]; norm_num, he.neg_one_pow]
    have : ((α p : ℝ) + 1) ≠ 0 := by positivity
    field_simp
    norm_num

theorem prod_axes (f : Fin n → ℝ) (T : Finset (Fin n)) (v : ℝ) (h : ∀ i, i ∉ T → f i = v) : ∏ i, f i = (∏ i ∈ T, f i) * v ^ (n - T.card) := by
  rw [← Finset.prod_mul_prod_compl T f, Finset.prod_congr rfl fun i hi => h i (Finset.mem_compl.1 hi)]
  simp [Finset.card_compl]

theorem two_pow_split {m : ℕ} (h : m ≤ n) : (2 : ℝ) ^ n = 2 ^ (n - m) * 2 ^ m := by
  rw [← pow_add]
  congr 1
  omega

theorem sums_two (c : Consts) (a b : Fin n → ℝ) (α : Fin n → ℕ) (p q : Fin n) (hpq : p ≠ q) (h : ∀ i, i ≠ p → i ≠ q → α i = 0) (hp : α p ≠ 0)
    (hq : α q ≠ 0) (hep : Even (α p)) (heq : Even (α q)) :
    sum1 (mono a α) a = 0 ∧ sum2 c (mono a α) a b = 0 ∧ sum3 c (mono a α) a b = 0 ∧
      sum4 c (mono a α) a b = 4 * (c.xl4 ^ α p * b p ^ α p) * (c.xl4 ^ α q * b q ^ α q) ∧
      sum5 c (mono a α) a b = 2 ^ n * ((c.xl5 ^ α p * b p ^ α p) * (c.xl5 ^ α q * b q ^ α q)) ∧
      mean b α = b p ^ α p / (α p + 1) * (b q ^ α q / (α q + 1)) := by
  have hn1 : ∀ j, ¬ ∀ i, i ≠ j → α i = 0 := by
    intro j hh
    by_cases hj : p = j
    · exact hq (hh q (by rw [← hj]; exact hpq.symm))
    · exact hp (hh p hj)
  have hT : ∀ i, i ∉ ({p, q} : Finset (Fin n)) → α i = 0 := by
    intro i hi
    simp only [Finset.mem_insert, Finset.mem_singleton, not_or] at hi
    exact h i hi.1 hi.2
  have hcard : ({p, q} : Finset (Fin n)).card = 2 := Finset.card_pair hpq
  have hn : 2 ≤ n := by
    have := Finset.card_le_univ ({p, q} : Finset (Fin n))
    rwa [hcard, Fintype.card_fin] at this
  refine ⟨?_, ?_, ?_, ?_, ?_, ?_⟩
  · rw [sum1_mono, if_neg fun hh => hp (hh p)]
  · rw [sum2_mono]
    exact Finset.sum_eq_zero fun j _ => if_neg (hn1 j)
  · rw [sum3_mono]
    exact Finset.sum_eq_zero fun j _ => if_neg (hn1 j)
  · have := sum4_mono c a b α
    have e : ∀ j k : Fin n, (if j = k then 0 else pair c.xl4 b α j k) =
        (4 * (c.xl4 ^ α p * b p ^ α p) * (c.xl4 ^ α q * b q ^ α q)) *
          ((if j = p then (if k = q then 1 else 0) else 0) + (if j = q then (if k = p then 1 else 0) else 0)) := by
      intro j k
      by_cases hjk : j = k
      · subst hjk
        rw [if_pos rfl]
        by_cases hj : j = p
        · subst hj; simp [hpq]
        · simp [hj]
      · rw [if_neg hjk]
        unfold pair
        by_cases hc : ∀ i, i ≠ j → i ≠ k → α i = 0
        · rw [if_pos hc]
          have h1 : p = j ∨ p = k := by
            by_contra hcon
            rw [not_or] at hcon
            exact hp (hc p hcon.1 hcon.2)
          have h2 : q = j ∨ q = k := by
            by_contra hcon
            rw [not_or] at hcon
            exact hq (hc q hcon.1 hcon.2)
          rcases h1 with rfl | rfl
          · rcases h2 with rfl | rfl
            · exact absurd rfl hpq
            · rw [both_even _ _ _ _ hep, both_even _ _ _ _ heq]
              simp [hpq]
              ring
          · rcases h2 with rfl | rfl
            · rw [both_even _ _ _ _ hep, both_even _ _ _ _ heq]
              simp [hpq.symm]
              ring
            · exact absurd rfl hpq
        · rw [if_neg hc]
          by_cases hj : j = p
          · subst hj
            by_cases hk : k = q
            · subst hk; exact absurd h hc
            · simp [hk, hpq]
          · by_cases hj2 : j = q
            · subst hj2
              by_cases hk : k = p
              · subst hk; exact absurd (fun i h1 h2 => h i h2 h1) hc
              · simp [hk, hj]
            · simp [hj, hj2]
    rw [Finset.sum_congr rfl fun j _ => Finset.sum_congr rfl fun k _ => e j k] at this
    simp only [← Finset.mul_sum, Finset.sum_add_distrib] at this
    have e2 : ∀ (x y : Fin n), (∑ j : Fin n, ∑ k : Fin n, if j = x then (if k = y then (1 : ℝ) else 0) else 0) = 1 := by
      intro x y
      rw [Finset.sum_eq_single x (fun j _ hj => by simp [hj]) (fun hh => absurd (Finset.mem_univ x) hh)]
      simp
    rw [e2, e2] at this
    linear_combination this / 2
  · rw [sum5_both, prod_axes _ {p, q} 2 fun i hi => both_zero _ _ _ _ (hT i hi), Finset.prod_pair hpq, both_even _ _ _ _ hep, both_even _ _ _ _ heq,
      hcard, two_pow_split hn]
    ring
  · unfold mean
    rw [prod_axes _ {p, q} 1 fun i hi => by rw [hT i hi]; norm_num]
    rw [Finset.prod_pair hpq, hep.neg_one_pow, heq.neg_one_pow]
    have h1 : ((α p : ℝ) + 1) ≠ 0 := by positivity
    have h2 : ((α q : ℝ) + 1) ≠ 0 := by positivity
    field_simp
    norm_num

theorem sums_three (c : Consts) (a b : Fin n → ℝ) (α : Fin n → ℕ) (p q r : Fin n) (hpq : p ≠ q) (hpr : p ≠ r) (hqr : q ≠ r)
    (h : ∀ i, i ≠ p → i ≠ q → i ≠ r → α i = 0) (hp : α p ≠ 0) (hq : α q ≠ 0) (hr : α r ≠ 0) (hep : Even (α p)) (heq : Even (α q))
    (her : Even (α r)) :
    sum1 (mono a α) a = 0 ∧ sum2 c (mono a α) a b = 0 ∧ sum3 c (mono a α) a b = 0 ∧ sum4 c (mono a α) a b = 0 ∧
      sum5 c (mono a α) a b = 2 ^ n * ((c.xl5 ^ α p * b p ^ α p) * ((c.xl5 ^ α q * b q ^ α q) * (c.xl5 ^ α r * b r ^ α r))) ∧
      mean b α = b p ^ α p / (α p + 1) * (b q ^ α q / (α q + 1) * (b r ^ α r / (α r + 1))) := by
  have hn2 : ∀ j k, ¬ ∀ i, i ≠ j → i ≠ k → α i = 0 := by
    intro j k hh
    have h1 : p = j ∨ p = k := by
      by_contra hcon
      rw [not_or] at hcon
      exact hp (hh p hcon.1 hcon.2)
    have h2 : q = j ∨ q = k := by
      by_contra hcon
      rw [not_or] at hcon
      exact hq (hh q hcon.1 hcon.2)
    have h3 : r = j ∨ r = k := by
      by_contra hcon
      rw [not_or] at hcon
      exact hr (hh r hcon.1 hcon.2)
    rcases h1 with rfl | rfl <;> rcases h2 with rfl | rfl <;> rcases h3 with rfl | rfl <;> simp_all
  have hn1 : ∀ j, ¬ ∀ i, i ≠ j → α i = 0 := fun j hh => hn2 j j fun i hi _ => hh i hi
  have hT : ∀ i, i ∉ ({p, q, r} : Finset (Fin n)) → α i = 0 := by
    intro i hi
    simp only [Finset.mem_insert, Finset.mem_singleton, not_or] at hi
    exact h i hi.1 hi.2.1 hi.2.2
  have hcard : ({p, q, r} : Finset (Fin n)).card = 3 := Finset.card_eq_three.2 ⟨p, q, r, hpq, hpr, hqr, rfl⟩
  have hn : 3 ≤ n := by
    have := Finset.card_le_univ ({p, q, r} : Finset (Fin n))
    rwa [hcard, Fintype.card_fin] at this
  have prod3 : ∀ f : Fin n → ℝ, ∏ i ∈ ({p, q, r} : Finset (Fin n)), f i = f p * (f q * f r) := by
    intro f
    rw [Finset.prod_insert (by simp [hpq, hpr]), Finset.prod_pair hqr]
  refine ⟨?_, ?_, ?_, ?_, ?_, ?_⟩
  · rw [sum1_mono, if_neg fun hh => hp (hh p)]
  · rw [sum2_mono]
    exact Finset.sum_eq_zero fun j _ => if_neg (hn1 j)
  · rw [sum3_mono]
    exact Finset.sum_eq_zero fun j _ => if_neg (hn1 j)
  · have := sum4_mono c a b α
    rw [Finset.sum_eq_zero] at this
    · linarith
    intro j _
    refine Finset.sum_eq_zero fun k _ => ?_
    split
    · rfl
    · exact if_neg (hn2 j k)
  · rw [sum5_both, prod_axes _ {p, q, r} 2 fun i hi => both_zero _ _ _ _ (hT i hi), prod3, both_even _ _ _ _ hep, both_even _ _ _ _ heq,
      both_even _ _ _ _ her, hcard, two_pow_split hn]
    ring
  · unfold mean
    rw [prod_axes _ {p, q, r} 1 fun i hi => by rw [hT i hi]; norm_num]
    rw [prod3, hep.neg_one_pow, heq.neg_one_pow, her.neg_one_pow]
    have h1 : ((α p : ℝ) + 1) ≠ 0 := by positivity
    have h2 : ((α q : ℝ) + 1) ≠ 0 := by positivity
    have h3 : ((α r : ℝ) + 1) ≠ 0 := by positivity
    field_simp
    norm_num

end AmpGen.Cubature
