import Verif.Spin.Spec
import Mathlib.Tactic.Linarith
import Mathlib.Tactic.Ring
import Mathlib.Tactic.FieldSimp
import Mathlib.Tactic.LinearCombination
import Mathlib.Algebra.BigOperators.Group.Finset.Basic
import Mathlib.Algebra.BigOperators.Intervals
import Mathlib.Algebra.Order.Field.Rat
import Mathlib.Data.Nat.Factorial.Basic
import Mathlib.Data.List.Nodup
/-
Lemmas about Clebsch-Gordan coefficients and spin-orbit couplings.
-/
namespace AmpGen.Spin
open Finset

theorem fact_nat (n : Nat) : fact (n : ℝ) = (n.factorial : ℝ) := by
  unfold fact
  rw [Nat.floor_natCast]
  induction n with
  | zero => simp
  | succ n ih => rw [List.range_succ, List.foldl_append, ih, Nat.factorial_succ]; simp [mul_comm]

theorem fact_pos (z : ℝ) : 0 < fact z := by
  unfold fact
  generalize ⌊z⌋₊ = n
  induction n with
  | zero => simp
  | succ n ih =>
    rw [List.range_succ, List.foldl_append]
    simp only [List.foldl_cons, List.foldl_nil]
    positivity

/-- One summand of a coefficient. -/
noncomputable def summand (j1 m1 j2 m2 J : ℝ) (nu : Nat) : ℝ :=
  if j1 + j2 - J - nu < 0 ∨ j1 - m1 - nu < 0 ∨ j2 + m2 - nu < 0 ∨ J - j2 + m1 + nu < 0 ∨ J - j1 - m2 + nu < 0 then 0
  else (-1) ^ nu / (fact nu * fact (j1 + j2 - J - nu) * fact (j1 - m1 - nu) * fact (j2 + m2 - nu) * fact (J - j2 + m1 + nu) * fact (J - j1 - m2 + nu))

theorem cgTerm_eq (j1 m1 j2 m2 J s : ℝ) (nu : Nat) : cgTerm j1 m1 j2 m2 J s nu = s + summand j1 m1 j2 m2 J nu := by
  unfold cgTerm summand
  simp only
  split
  · rw [add_zero]
  · congr 2
    rcases Nat.even_or_odd nu with h | h
    · rw [if_pos (Nat.even_iff.1 h), h.neg_one_pow]
    · rw [if_neg (by rw [Nat.odd_iff.1 h]; decide), h.neg_one_pow]

theorem sum_eq (j1 m1 j2 m2 J : ℝ) (n : Nat) :
    (List.range n).foldl (cgTerm j1 m1 j2 m2 J) 0 = ∑ nu ∈ range n, summand j1 m1 j2 m2 J nu := by
  induction n with
  | zero => simp
  | succ n ih => rw [List.range_succ, List.foldl_append, ih, Finset.sum_range_succ, List.foldl_cons, List.foldl_nil, cgTerm_eq]

theorem passes_nat (n : Nat) : passes n = n + 1 := by
  unfold passes
  rw [if_neg (by have : (0 : ℝ) ≤ n := Nat.cast_nonneg n; linarith), Nat.floor_natCast]

/-- The square root in a coefficient. -/
noncomputable def normOf (j1 m1 j2 m2 J : ℝ) : ℝ :=
  (2 * J + 1) * fact (J + j1 - j2) * fact (J - j1 + j2) * fact (j1 + j2 - J) *
    (fact (j1 + m1) * fact (j1 - m1) * fact (j2 + m2) * fact (j2 - m2) * fact (J + (m1 + m2)) * fact (J - (m1 + m2))) / fact (J + j1 + j2 + 1)

theorem CG_eq (j1 m1 j2 m2 J : ℝ) :
    CG j1 m1 j2 m2 J (m1 + m2) = √(normOf j1 m1 j2 m2 J) * ∑ nu ∈ range (passes (j1 + j2 - J)), summand j1 m1 j2 m2 J nu := by
  unfold CG normOf
  rw [if_neg (by simp)]
  simp only
  rw [sum_eq]

/-! Spin-orbit couplings. -/

theorem accept_iff {J L S : ℚ} (hJ : 0 ≤ J) (hL : 0 ≤ L) (hS : 0 ≤ S) : accept J L S = if |L - S| ≤ J ∧ J ≤ L + S then 1 else 0 := by
  have key : (|L - S| ≤ J ∧ J ≤ L + S) ↔ (-(2 * L * S) ≤ J * J - L * L - S * S ∧ J * J - L * L - S * S ≤ 2 * L * S) := by
    have h1 : |L - S| ≤ J ↔ (L - S) ^ 2 ≤ J ^ 2 := by
      rw [sq_le_sq, abs_of_nonneg hJ]
    have h2 : J ≤ L + S ↔ J ^ 2 ≤ (L + S) ^ 2 := by
      rw [sq_le_sq, abs_of_nonneg hJ, abs_of_nonneg (add_nonneg hL hS)]
    rw [h1, h2]
    constructor
    · rintro ⟨a, b⟩; constructor <;> nlinarith
    · rintro ⟨a, b⟩; constructor <;> nlinarith
  unfold accept
  simp only
  by_cases hz : L = 0 ∨ S = 0
  · have h0 : 2 * L * S = 0 := by rcases hz with h | h <;> rw [h] <;> ring
    have hn : ¬ (L ≠ 0 ∧ S ≠ 0 ∧ |(J * J - L * L - S * S) / (2 * L * S)| ≤ 1) := by
      rintro ⟨a, b, _⟩; rcases hz with h | h
      · exact a h
      · exact b h
    rw [if_neg hn, Nat.zero_add]
    have : ((L = 0 ∨ S = 0) ∧ J * J - L * L - S * S = 0) ↔ (|L - S| ≤ J ∧ J ≤ L + S) := by
      rw [key, h0]
      constructor
      · rintro ⟨_, h⟩; rw [h]; simp
      · rintro ⟨a, b⟩; exact ⟨hz, le_antisymm b (by simpa using a)⟩
    by_cases ht : |L - S| ≤ J ∧ J ≤ L + S
    · rw [if_pos ht, if_pos (this.2 ht)]
    · rw [if_neg ht, if_neg fun h => ht (this.1 h)]
  · have hL' : L ≠ 0 := fun h => hz (Or.inl h)
    have hS' : S ≠ 0 := fun h => hz (Or.inr h)
    have hpos : 0 < 2 * L * S := by
      have := lt_of_le_of_ne hL (Ne.symm hL')
      have := lt_of_le_of_ne hS (Ne.symm hS')
      positivity
    have hn : ¬ ((L = 0 ∨ S = 0) ∧ J * J - L * L - S * S = 0) := fun h => hz h.1
    rw [if_neg hn, Nat.add_zero]
    have : (L ≠ 0 ∧ S ≠ 0 ∧ |(J * J - L * L - S * S) / (2 * L * S)| ≤ 1) ↔ (|L - S| ≤ J ∧ J ≤ L + S) := by
      rw [key, abs_div, abs_of_pos hpos, div_le_one hpos, abs_le]
      exact ⟨fun h => h.2.2, fun h => ⟨hL', hS', h⟩⟩
    by_cases ht : |L - S| ≤ J ∧ J ≤ L + S
    · rw [if_pos ht, if_pos (this.2 ht)]
    · rw [if_neg ht, if_neg fun h => ht (this.1 h)]

theorem firstFrom_spec (p : Nat → Bool) : ∀ n l, l ≤ firstFrom p l n ∧ firstFrom p l n ≤ l + n ∧ (∀ k, l ≤ k → k < firstFrom p l n → p k = false) ∧
    (firstFrom p l n < l + n → p (firstFrom p l n) = true) := by
  intro n
  induction n with
  | zero => intro l; simp [firstFrom]; intro k h1 h2; omega
  | succ n ih =>
    intro l
    unfold firstFrom
    split
    · rename_i h
      exact ⟨le_rfl, by omega, fun k h1 h2 => by omega, fun _ => h⟩
    · rename_i h
      obtain ⟨a, b, c, d⟩ := ih (l + 1)
      refine ⟨by omega, by omega, ?_, fun h' => d (by omega)⟩
      intro k h1 h2
      rcases Nat.eq_or_lt_of_le h1 with rfl | h3
      · simpa using h
      · exact c k h3 h2

theorem lastFrom_spec (p : Nat → Bool) : ∀ n l, n ≤ l + 1 → (∃ k, l + 1 - n ≤ k ∧ k ≤ l ∧ p k = true) →
    lastFrom p l n ≤ l ∧ l + 1 - n ≤ lastFrom p l n ∧ ∀ k, lastFrom p l n < k → k ≤ l → p k = false := by
  intro n
  induction n with
  | zero => rintro l _ ⟨k, h1, h2, _⟩; omega
  | succ n ih =>
    rintro l hl ⟨k, h1, h2, h3⟩
    unfold lastFrom
    split
    · exact ⟨le_rfl, by omega, fun k h1 h2 => by omega⟩
    · rename_i h
      have hk : k ≠ l := by rintro rfl; exact h h3
      obtain ⟨a, b, c⟩ := ih (l - 1) (by omega) ⟨k, by omega, by omega, h3⟩
      refine ⟨by omega, by omega, ?_⟩
      intro k' h1' h2'
      rcases Nat.eq_or_lt_of_le h2' with rfl | h3'
      · simpa using h
      · exact c k' h1' (by omega)

theorem foldl_min_le (f : Nat → Nat) (m0 : Nat) (n : Nat) : (List.range n).foldl (fun m i => Nat.min m (f i)) m0 ≤ m0 ∧
    ∀ i < n, (List.range n).foldl (fun m i => Nat.min m (f i)) m0 ≤ f i := by
  induction n with
  | zero => simp
  | succ n ih =>
    rw [List.range_succ, List.foldl_append]
    simp only [List.foldl_cons, List.foldl_nil]
    refine ⟨le_trans (Nat.min_le_left _ _) ih.1, ?_⟩
    intro i hi
    rcases Nat.eq_or_lt_of_le (Nat.le_of_lt_succ hi) with rfl | h
    · exact Nat.min_le_right _ _
    · exact le_trans (Nat.min_le_left _ _) (ih.2 i h)

theorem orbitalRange_bounds (conserves : Nat → Bool) (conserveParity : Bool) (S s1 s2 l k : Nat) (hk : ((s1 : Int) - s2).natAbs + 2 * k ≤ s1 + s2)
    (hlo : ((S : Int) - (((s1 : Int) - s2).natAbs + 2 * k : Nat)).natAbs ≤ 2 * l) (hhi : 2 * l ≤ S + (s1 + s2))
    (hc : conserveParity = true → conserves l = true) :
    (orbitalRange conserves conserveParity S s1 s2).1 ≤ l ∧ l ≤ (orbitalRange conserves conserveParity S s1 s2).2 := by
  unfold orbitalRange
  simp only
  set a := ((s1 : Int) - s2).natAbs with ha
  set mn := (List.range (s1 + s2 + 1 - a)).foldl (fun m i => Nat.min m ((S : Int) - (a + i : Nat)).natAbs) ((S : Int) - a).natAbs with hmn
  have h1 : mn ≤ ((S : Int) - (a + 2 * k : Nat)).natAbs :=
    (foldl_min_le (fun i => ((S : Int) - (a + i : Nat)).natAbs) ((S : Int) - a).natAbs (s1 + s2 + 1 - a)).2 (2 * k) (by omega)
  have hmin : mn / 2 ≤ l := by omega
  have hmax : l ≤ (S + (s1 + s2)) / 2 := by omega
  split
  · exact ⟨hmin, hmax⟩
  · rename_i hcp
    have hcl := hc (by simpa using hcp)
    obtain ⟨a1, a2, a3, a4⟩ := firstFrom_spec conserves ((S + (s1 + s2)) / 2 + 1 - mn / 2) (mn / 2)
    have hfirst : firstFrom conserves (mn / 2) ((S + (s1 + s2)) / 2 + 1 - mn / 2) ≤ l := by
      by_contra hn
      have := a3 l hmin (by omega)
      rw [hcl] at this
      exact absurd this (by decide)
    rw [if_neg (by omega)]
    refine ⟨hfirst, ?_⟩
    obtain ⟨b1, b2, b3⟩ := lastFrom_spec conserves ((S + (s1 + s2)) / 2 + 1 - mn / 2) ((S + (s1 + s2)) / 2) (by omega) ⟨l, by omega, hmax, hcl⟩
    simp only
    by_contra hn
    have := b3 l (by omega) hmax
    rw [hcl] at this
    exact absurd this (by decide)

theorem mem_couplings (conserves : Nat → Bool) (conserveParity : Bool) (twoJ s1 s2 : Nat) (x : ℚ × ℚ) :
    x ∈ spinOrbitCouplings conserves conserveParity twoJ s1 s2 ↔
      ∃ l k : Nat, (orbitalRange conserves conserveParity twoJ s1 s2).1 ≤ l ∧ l ≤ (orbitalRange conserves conserveParity twoJ s1 s2).2 ∧
        (conserveParity = true → conserves l = true) ∧ k ≤ ⌊(s1 : ℚ) / 2 + (s2 : ℚ) / 2 - |(s1 : ℚ) / 2 - (s2 : ℚ) / 2|⌋₊ ∧
        accept ((twoJ : ℚ) / 2) l (|(s1 : ℚ) / 2 - (s2 : ℚ) / 2| + k) ≠ 0 ∧ x = ((l : ℚ), |(s1 : ℚ) / 2 - (s2 : ℚ) / 2| + (k : ℚ)) := by
  unfold spinOrbitCouplings
  simp only [List.mem_flatMap, List.mem_range]
  constructor
  · rintro ⟨dl, hdl, hx⟩
    split at hx
    · simp at hx
    · rename_i hc
      obtain ⟨k, hk, hx⟩ := List.mem_flatMap.1 hx
      obtain ⟨h1, h2⟩ := List.mem_replicate.1 hx
      refine ⟨(orbitalRange conserves conserveParity twoJ s1 s2).1 + dl, k, by omega, by omega, ?_, Nat.lt_succ_iff.1 (List.mem_range.1 hk), h1, h2⟩
      intro hcp
      rw [hcp] at hc ⊢
      simpa using hc
  · rintro ⟨l, k, h1, h2, h3, h4, h5, rfl⟩
    refine ⟨l - (orbitalRange conserves conserveParity twoJ s1 s2).1, by omega, ?_⟩
    rw [Nat.add_sub_cancel' h1]
    rw [if_neg (by
      cases conserveParity
      · simp
      · simp [h3 rfl])]
    exact List.mem_flatMap.2 ⟨k, List.mem_range.2 (Nat.lt_succ_of_le h4), List.mem_replicate.2 ⟨h5, rfl⟩⟩

theorem accept_le {J L S : ℚ} (hJ : 0 ≤ J) (hL : 0 ≤ L) (hS : 0 ≤ S) : accept J L S ≤ 1 := by
  rw [accept_iff hJ hL hS]
  split <;> omega

theorem nodup_couplings (conserves : Nat → Bool) (conserveParity : Bool) (twoJ s1 s2 : Nat) :
    (spinOrbitCouplings conserves conserveParity twoJ s1 s2).Nodup := by
  unfold spinOrbitCouplings
  simp only
  rw [List.nodup_flatMap]
  constructor
  · intro dl _
    split
    · exact List.nodup_nil
    · rw [List.nodup_flatMap]
      constructor
      · intro k _
        rw [List.nodup_replicate]
        exact accept_le (by positivity) (by positivity) (by positivity)
      · apply List.Nodup.pairwise_of_forall_ne List.nodup_range
        intro a _ b _ hab
        simp only [Function.onFun, List.disjoint_left]
        intro x hx hx'
        have h1 := (List.mem_replicate.1 hx).2
        rw [(List.mem_replicate.1 hx').2] at h1
        simp only [Prod.mk.injEq, true_and, add_right_inj, Nat.cast_inj] at h1
        exact hab h1.symm
  · apply List.Nodup.pairwise_of_forall_ne List.nodup_range
    intro a _ b _ hab
    simp only [Function.onFun, List.disjoint_left]
    intro x hx hx'
    split at hx
    · simp at hx
    · split at hx'
      · simp at hx'
      · obtain ⟨k, _, hx⟩ := List.mem_flatMap.1 hx
        obtain ⟨k', _, hx'⟩ := List.mem_flatMap.1 hx'
        have h1 := (List.mem_replicate.1 hx).2
        rw [(List.mem_replicate.1 hx').2] at h1
        simp only [Prod.mk.injEq, Nat.cast_inj] at h1
        omega

end AmpGen.Spin
