import Verif.PhaseSpace.Spec
import Mathlib.Algebra.BigOperators.Fin
import Mathlib.Data.List.GetD
import Mathlib.Algebra.Order.BigOperators.Group.Finset
import Mathlib.Algebra.Order.BigOperators.Ring.Finset
import Mathlib.Tactic.Ring
import Mathlib.Tactic.FieldSimp
import Mathlib.Tactic.Linarith
import Mathlib.Tactic.NormNum
import Mathlib.Tactic.LinearCombination
import Mathlib.Tactic.Positivity
/-
Break-up momentum, ordered random numbers and the boost chain.
-/
namespace AmpGen.PhaseSpace

/-! ### The break-up momentum -/

/-- Four times the square of the break-up momentum. -/
noncomputable def lam (m m1 m2 : ℝ) : ℝ :=
  m * m - 2 * m1 * m1 - 2 * m2 * m2 + (m1 * m1 - m2 * m2) * (m1 * m1 - m2 * m2) / (m * m)

theorem lam_eq {m : ℝ} (hm : 0 < m) (m1 m2 : ℝ) :
    lam m m1 m2 = (m ^ 2 - (m1 + m2) ^ 2) * (m ^ 2 - (m1 - m2) ^ 2) / m ^ 2 := by
  unfold lam
  field_simp
  ring

theorem lam_nonneg {m m1 m2 : ℝ} (hm : 0 < m) (h1 : 0 ≤ m1) (h2 : 0 ≤ m2) (h : m1 + m2 ≤ m) : 0 ≤ lam m m1 m2 := by
  rw [lam_eq hm]
  have a : 0 ≤ m ^ 2 - (m1 + m2) ^ 2 := by nlinarith
  have b : 0 ≤ m ^ 2 - (m1 - m2) ^ 2 := by nlinarith [mul_nonneg h1 h2]
  positivity

theorem lam_pos {m m1 m2 : ℝ} (hm : 0 < m) (h1 : 0 ≤ m1) (h2 : 0 ≤ m2) (h : m1 + m2 < m) : 0 < lam m m1 m2 := by
  rw [lam_eq hm]
  have a : 0 < m ^ 2 - (m1 + m2) ^ 2 := by nlinarith
  have b : 0 < m ^ 2 - (m1 - m2) ^ 2 := by nlinarith [mul_nonneg h1 h2]
  positivity

theorem q_eq (m m1 m2 : ℝ) : q m m1 m2 = 0.5 * √(lam m m1 m2) := rfl

theorem q_nonneg (m m1 m2 : ℝ) : 0 ≤ q m m1 m2 := by
  rw [q_eq]; positivity

theorem q_pos {m m1 m2 : ℝ} (hm : 0 < m) (h1 : 0 ≤ m1) (h2 : 0 ≤ m2) (h : m1 + m2 < m) : 0 < q m m1 m2 := by
  rw [q_eq]
  have := Real.sqrt_pos.mpr (lam_pos hm h1 h2 h)
  positivity

theorem q_sq {m m1 m2 : ℝ} (hm : 0 < m) (h1 : 0 ≤ m1) (h2 : 0 ≤ m2) (h : m1 + m2 ≤ m) :
    q m m1 m2 * q m m1 m2 = lam m m1 m2 / 4 := by
  rw [q_eq]
  have := Real.mul_self_sqrt (lam_nonneg hm h1 h2 h)
  linear_combination (1 / 4) * this

theorem energy1 {m m1 m2 : ℝ} (hm : 0 < m) (h1 : 0 ≤ m1) (h2 : 0 ≤ m2) (h : m1 + m2 ≤ m) :
    √(q m m1 m2 * q m m1 m2 + m1 * m1) = (m ^ 2 + m1 ^ 2 - m2 ^ 2) / (2 * m) := by
  rw [q_sq hm h1 h2 h]
  have e : lam m m1 m2 / 4 + m1 * m1 = ((m ^ 2 + m1 ^ 2 - m2 ^ 2) / (2 * m)) ^ 2 := by
    unfold lam; field_simp; ring
  rw [e, Real.sqrt_sq]
  have : 0 ≤ m ^ 2 + m1 ^ 2 - m2 ^ 2 := by nlinarith [mul_nonneg h1 h2]
  positivity

theorem energy2 {m m1 m2 : ℝ} (hm : 0 < m) (h1 : 0 ≤ m1) (h2 : 0 ≤ m2) (h : m1 + m2 ≤ m) :
    √(q m m1 m2 * q m m1 m2 + m2 * m2) = (m ^ 2 + m2 ^ 2 - m1 ^ 2) / (2 * m) := by
  rw [q_sq hm h1 h2 h]
  have e : lam m m1 m2 / 4 + m2 * m2 = ((m ^ 2 + m2 ^ 2 - m1 ^ 2) / (2 * m)) ^ 2 := by
    unfold lam; field_simp; ring
  rw [e, Real.sqrt_sq]
  have : 0 ≤ m ^ 2 + m2 ^ 2 - m1 ^ 2 := by nlinarith [mul_nonneg h1 h2]
  positivity

/-- The energies of the two bodies add up to the parent mass. -/
theorem energy_add {m m1 m2 : ℝ} (hm : 0 < m) (h1 : 0 ≤ m1) (h2 : 0 ≤ m2) (h : m1 + m2 ≤ m) :
    √(q m m1 m2 * q m m1 m2 + m1 * m1) + √(q m m1 m2 * q m m1 m2 + m2 * m2) = m := by
  rw [energy1 hm h1 h2 h, energy2 hm h1 h2 h]
  field_simp
  ring

/-- The break-up momentum grows with the parent mass and falls with the mass of a body. -/
theorem q_mono {m m' m1 m1' m2 : ℝ} (hm : 0 < m) (hmm : m ≤ m') (h1' : 0 ≤ m1') (h11 : m1' ≤ m1) (h2 : 0 ≤ m2)
    (h : m1 + m2 ≤ m) : q m m1 m2 ≤ q m' m1' m2 := by
  rw [q_eq, q_eq]
  have hl : lam m m1 m2 ≤ lam m' m1' m2 := by
    have h1 : 0 ≤ m1 := le_trans h1' h11
    have hm' : 0 < m' := lt_of_lt_of_le hm hmm
    have s1 : lam m m1 m2 ≤ lam m m1' m2 := by
      rw [← sub_nonneg]
      have e : lam m m1' m2 - lam m m1 m2 =
          (m1 ^ 2 - m1' ^ 2) * (2 * m ^ 2 - (m1 ^ 2 + m1' ^ 2 - 2 * m2 ^ 2)) / m ^ 2 := by
        unfold lam; field_simp; ring
      rw [e]
      have a : 0 ≤ m1 ^ 2 - m1' ^ 2 := by nlinarith
      have b : 0 ≤ 2 * m ^ 2 - (m1 ^ 2 + m1' ^ 2 - 2 * m2 ^ 2) := by nlinarith [mul_nonneg h1 h2]
      positivity
    have s2 : lam m m1' m2 ≤ lam m' m1' m2 := by
      rw [← sub_nonneg]
      have e : lam m' m1' m2 - lam m m1' m2 =
          (m' ^ 2 - m ^ 2) * (m ^ 2 * m' ^ 2 - (m1' ^ 2 - m2 ^ 2) ^ 2) / (m ^ 2 * m' ^ 2) := by
        unfold lam; field_simp; ring
      rw [e]
      have a : 0 ≤ m' ^ 2 - m ^ 2 := by nlinarith
      have hd1 : m1' ^ 2 - m2 ^ 2 ≤ m ^ 2 := by nlinarith [mul_nonneg h1' h2]
      have hd2 : -(m1' ^ 2 - m2 ^ 2) ≤ m ^ 2 := by nlinarith [mul_nonneg h1' h2]
      have hd3 : (m1' ^ 2 - m2 ^ 2) ^ 2 ≤ (m ^ 2) ^ 2 := by nlinarith
      have b : 0 ≤ m ^ 2 * m' ^ 2 - (m1' ^ 2 - m2 ^ 2) ^ 2 := by nlinarith [sq_nonneg m]
      positivity
    exact s1.trans s2
  have := Real.sqrt_le_sqrt hl
  linarith

/-! ### Sums of masses -/

/-- Sum of the first `n` masses. -/
noncomputable def psum (mass : Nat → ℝ) (n : Nat) : ℝ := ∑ k ∈ Finset.range n, mass k

theorem foldl_add_range (f : Nat → ℝ) (n : Nat) (a : ℝ) :
    (List.range n).foldl (fun s k => s + f k) a = a + psum f n := by
  unfold psum
  induction n with
  | zero => simp
  | succ n ih => rw [List.range_succ, List.foldl_append, ih, Finset.sum_range_succ]; simp [add_assoc]

theorem foldl_sub_range (f : Nat → ℝ) (n : Nat) (a : ℝ) :
    (List.range n).foldl (fun s k => s - f k) a = a - psum f n := by
  unfold psum
  induction n with
  | zero => simp
  | succ n ih => rw [List.range_succ, List.foldl_append, ih, Finset.sum_range_succ]; simp [sub_sub]

theorem foldl_mul_range (f : Nat → ℝ) (n : Nat) (a : ℝ) :
    (List.range n).foldl (fun s k => s * f k) a = a * ∏ k ∈ Finset.range n, f k := by
  induction n with
  | zero => simp
  | succ n ih => rw [List.range_succ, List.foldl_append, ih, Finset.prod_range_succ]; simp [mul_assoc]

theorem psum_getD (l : List ℝ) : psum (fun n => l.getD n 0) l.length = l.sum := by
  unfold psum
  rw [Finset.sum_range, ← List.sum_ofFn]
  congr 1
  apply List.ext_getElem (by simp)
  intro i h1 h2
  simp [List.getD_eq_getElem?_getD, List.getElem?_eq_getElem h2]

/-- A generator as set up by `setDecay` for an allowed decay. -/
structure Ready (g : Gen) (m0 : ℝ) : Prop where
  two : 2 ≤ g.nt
  cap : g.nt ≤ 18
  mass : ∀ n, 0 ≤ g.mass n
  te : 0 < g.te
  total : g.te + psum g.mass g.nt = m0
  wt : g.wtMax = 1 / ∏ n ∈ Finset.range (g.nt - 1), q (g.te + psum g.mass (n + 2)) (psum g.mass (n + 1)) (g.mass (n + 1))

theorem psum_mono {mass : Nat → ℝ} (h : ∀ n, 0 ≤ mass n) {a b : Nat} (hab : a ≤ b) : psum mass a ≤ psum mass b := by
  unfold psum
  exact Finset.sum_le_sum_of_subset_of_nonneg (Finset.range_subset_range.mpr hab) (fun i _ _ => h i)

theorem psum_nonneg {mass : Nat → ℝ} (h : ∀ n, 0 ≤ mass n) (n : Nat) : 0 ≤ psum mass n :=
  Finset.sum_nonneg fun i _ => h i

theorem psum_succ (mass : Nat → ℝ) (n : Nat) : psum mass (n + 1) = psum mass n + mass n :=
  Finset.sum_range_succ ..

theorem maxLoop (mass : Nat → ℝ) (te : ℝ) (n : Nat) :
    (List.range' 1 n).foldl (maxStep mass) (0, te + mass 0, 1) =
      (psum mass n, te + psum mass (n + 1),
        ∏ k ∈ Finset.range n, q (te + psum mass (k + 2)) (psum mass (k + 1)) (mass (k + 1))) := by
  induction n with
  | zero => simp [psum]
  | succ n ih =>
    rw [List.range'_concat, List.foldl_append, ih, Finset.prod_range_succ]
    simp only [List.foldl_cons, List.foldl_nil, maxStep]
    have e : 1 + 1 * n = n + 1 := by omega
    rw [e, Nat.add_sub_cancel, ← psum_succ, add_assoc te, ← psum_succ]

theorem setDecay_ready {m0 : ℝ} {masses : List ℝ} (h : Allowed m0 masses) :
    Ready (setDecay m0 masses).1 m0 ∧ (setDecay m0 masses).2 = true ∧
      (setDecay m0 masses).1.nt = masses.length ∧ (setDecay m0 masses).1.mass = fun n => masses.getD n 0 := by
  have hte : (List.range masses.length).foldl (fun t n => t - masses.getD n 0) m0 = m0 - masses.sum := by
    rw [foldl_sub_range, psum_getD]
  have hpos : ¬ (m0 - masses.sum ≤ 0) := by have := h.threshold; linarith
  unfold setDecay
  simp only [hte]
  rw [if_neg hpos]
  refine ⟨⟨h.bodies, h.capacity, ?_, by linarith, ?_, ?_⟩, rfl, rfl, rfl⟩
  · intro n
    show 0 ≤ masses.getD n 0
    rw [List.getD_eq_getElem?_getD]
    cases hn : masses[n]? with
    | none => simp
    | some m => exact h.nonneg m (List.mem_of_getElem? hn)
  · show m0 - masses.sum + psum (fun n => masses.getD n 0) masses.length = m0
    rw [psum_getD]; ring
  · show 1 / ((List.range' 1 (masses.length - 1)).foldl (maxStep fun n => masses.getD n 0)
        (0, m0 - masses.sum + masses.getD 0 0, 1)).2.2 = _
    rw [maxLoop (fun n => masses.getD n 0) (m0 - masses.sum)]

/-! ### The ordered random numbers -/

theorem rno_length {nt : Nat} (h : 2 ≤ nt) (u : Nat → ℝ) : (rno nt u).length = nt := by
  unfold rno
  rw [if_neg (by omega)]
  simp only [List.length_cons, List.length_insertionSort, List.length_append, List.length_map, List.length_range,
    List.length_nil]
  omega

theorem rno_mem {nt : Nat} (h : 2 ≤ nt) {u : Nat → ℝ} (hu : ∀ k, 0 < u k ∧ u k < 1) :
    ∀ x ∈ (((List.range (nt - 2)).map u) ++ [1]).insertionSort (· ≤ ·), 0 < x ∧ x ≤ 1 := by
  intro x hx
  rw [List.mem_insertionSort, List.mem_append] at hx
  rcases hx with hx | hx
  · obtain ⟨k, _, rfl⟩ := List.mem_map.mp hx
    exact ⟨(hu k).1, (hu k).2.le⟩
  · rw [List.mem_singleton] at hx
    rw [hx]; norm_num

theorem rno_pairwise {nt : Nat} (h : 2 ≤ nt) {u : Nat → ℝ} (hu : ∀ k, 0 < u k ∧ u k < 1) :
    (rno nt u).Pairwise (· ≤ ·) := by
  unfold rno
  rw [if_neg (by omega), List.pairwise_cons]
  exact ⟨fun x hx => (rno_mem h hu x hx).1.le, List.pairwise_insertionSort _ _⟩

theorem rno_le {nt : Nat} (h : 2 ≤ nt) {u : Nat → ℝ} (hu : ∀ k, 0 < u k ∧ u k < 1) {i j : Nat} (hij : i ≤ j)
    (hj : j < nt) : (rno nt u).getD i 0 ≤ (rno nt u).getD j 0 := by
  have hl := rno_length h u
  have hi' : i < (rno nt u).length := by omega
  have hj' : j < (rno nt u).length := by omega
  rw [List.getD_eq_getElem _ _ hi', List.getD_eq_getElem _ _ hj']
  rcases Nat.eq_or_lt_of_le hij with e | e
  · subst e; exact le_refl _
  · exact List.pairwise_iff_getElem.mp (rno_pairwise h hu) i j hi' hj' e

theorem rno_zero {nt : Nat} (h : 2 ≤ nt) (u : Nat → ℝ) : (rno nt u).getD 0 0 = 0 := by
  unfold rno
  rw [if_neg (by omega)]; rfl

theorem rno_pos {nt : Nat} (h : 2 ≤ nt) {u : Nat → ℝ} (hu : ∀ k, 0 < u k ∧ u k < 1) {i : Nat} (hi : 0 < i)
    (hi' : i < nt) : 0 < (rno nt u).getD i 0 ∧ (rno nt u).getD i 0 ≤ 1 := by
  have hl := rno_length h u
  have h1 : i < (rno nt u).length := by omega
  rw [List.getD_eq_getElem _ _ h1]
  apply rno_mem h hu
  unfold rno at h1 ⊢
  simp only [if_neg (show ¬ nt = 1 by omega)] at h1 ⊢
  obtain ⟨k, rfl⟩ := Nat.exists_eq_succ_of_ne_zero (by omega : i ≠ 0)
  rw [List.getElem_cons_succ]
  exact List.getElem_mem _

theorem rno_last {nt : Nat} (h : 2 ≤ nt) {u : Nat → ℝ} (hu : ∀ k, 0 < u k ∧ u k < 1) :
    (rno nt u).getD (nt - 1) 0 = 1 := by
  apply le_antisymm (rno_pos h hu (by omega) (by omega)).2
  have hmem : (1 : ℝ) ∈ rno nt u := by
    unfold rno
    rw [if_neg (by omega)]
    apply List.mem_cons_of_mem
    rw [List.mem_insertionSort]
    simp
  obtain ⟨k, hk, e⟩ := List.getElem_of_mem hmem
  have hl := rno_length h u
  have := rno_le h hu (show k ≤ nt - 1 by omega) (by omega)
  rwa [List.getD_eq_getElem _ _ hk, e] at this

/-! ### Invariant masses -/

theorem invMas_eq (g : Gen) (u : Nat → ℝ) (n : Nat) :
    invMas g u n = (rno g.nt u).getD n 0 * g.te + psum g.mass (n + 1) := by
  unfold invMas
  rw [foldl_add_range, zero_add]

theorem invMas_step {g : Gen} {m0 : ℝ} (hg : Ready g m0) {u : Nat → ℝ} (hu : ∀ k, 0 < u k ∧ u k < 1) {n : Nat}
    (hn : n + 1 < g.nt) : invMas g u n + g.mass (n + 1) ≤ invMas g u (n + 1) := by
  rw [invMas_eq, invMas_eq, psum_succ g.mass (n + 1)]
  have := rno_le hg.two hu (show n ≤ n + 1 by omega) hn
  nlinarith [hg.te]

theorem invMas_pos {g : Gen} {m0 : ℝ} (hg : Ready g m0) {u : Nat → ℝ} (hu : ∀ k, 0 < u k ∧ u k < 1) {n : Nat}
    (h0 : 0 < n) (hn : n < g.nt) : 0 < invMas g u n := by
  rw [invMas_eq]
  have h1 := (rno_pos hg.two hu h0 hn).1
  have h2 := psum_nonneg hg.mass (n + 1)
  have := hg.te
  positivity

theorem invMas_low {g : Gen} {m0 : ℝ} (hg : Ready g m0) {u : Nat → ℝ} (hu : ∀ k, 0 < u k ∧ u k < 1) {n : Nat}
    (hn : n < g.nt) : psum g.mass (n + 1) ≤ invMas g u n := by
  rw [invMas_eq]
  have h1 : 0 ≤ (rno g.nt u).getD n 0 := by
    have := rno_le hg.two hu (Nat.zero_le n) hn
    rwa [rno_zero hg.two] at this
  nlinarith [hg.te]

theorem invMas_high {g : Gen} {m0 : ℝ} (hg : Ready g m0) {u : Nat → ℝ} (hu : ∀ k, 0 < u k ∧ u k < 1) {n : Nat}
    (hn : n < g.nt) : invMas g u n ≤ g.te + psum g.mass (n + 1) := by
  rw [invMas_eq]
  have h1 := rno_le hg.two hu (show n ≤ g.nt - 1 by omega) (by omega)
  rw [rno_last hg.two hu] at h1
  nlinarith [hg.te]

theorem invMas_zero {g : Gen} {m0 : ℝ} (hg : Ready g m0) (u : Nat → ℝ) : invMas g u 0 = g.mass 0 := by
  rw [invMas_eq, rno_zero hg.two, psum_succ]
  simp [psum]

theorem invMas_last {g : Gen} {m0 : ℝ} (hg : Ready g m0) {u : Nat → ℝ} (hu : ∀ k, 0 < u k ∧ u k < 1) :
    invMas g u (g.nt - 1) = m0 := by
  rw [invMas_eq, rno_last hg.two hu, one_mul]
  have := hg.two
  rw [show g.nt - 1 + 1 = g.nt by omega]
  exact hg.total

/-! ### The weight -/

theorem wtMax_pos {g : Gen} {m0 : ℝ} (hg : Ready g m0) : 0 < g.wtMax := by
  rw [hg.wt]
  apply one_div_pos.mpr
  apply Finset.prod_pos
  intro n _
  apply q_pos
  · have := psum_nonneg hg.mass (n + 2); linarith [hg.te]
  · exact psum_nonneg hg.mass _
  · exact hg.mass _
  · rw [psum_succ g.mass (n + 1)]; linarith [hg.te]

theorem weight_eq (g : Gen) (u : Nat → ℝ) :
    weight g u = g.wtMax * ∏ n ∈ Finset.range (g.nt - 1), q (invMas g u (n + 1)) (invMas g u n) (g.mass (n + 1)) := by
  unfold weight
  exact foldl_mul_range _ _ _

theorem weight_le {g : Gen} {m0 : ℝ} (hg : Ready g m0) {u : Nat → ℝ} (hu : ∀ k, 0 < u k ∧ u k < 1) :
    0 ≤ weight g u ∧ weight g u ≤ 1 := by
  have hprod : (∏ n ∈ Finset.range (g.nt - 1), q (invMas g u (n + 1)) (invMas g u n) (g.mass (n + 1))) ≤
      ∏ n ∈ Finset.range (g.nt - 1), q (g.te + psum g.mass (n + 2)) (psum g.mass (n + 1)) (g.mass (n + 1)) := by
    apply Finset.prod_le_prod
    · intro n _; exact q_nonneg _ _ _
    · intro n hn
      have hn' : n + 1 < g.nt := by have := Finset.mem_range.mp hn; omega
      exact q_mono (invMas_pos hg hu (by omega) hn') (invMas_high hg hu hn') (psum_nonneg hg.mass _)
        (invMas_low hg hu (by omega)) (hg.mass _) (invMas_step hg hu hn')
  have hw := wtMax_pos hg
  rw [weight_eq]
  constructor
  · exact mul_nonneg hw.le (Finset.prod_nonneg fun n _ => q_nonneg _ _ _)
  · calc _ ≤ g.wtMax * ∏ n ∈ Finset.range (g.nt - 1), q (g.te + psum g.mass (n + 2)) (psum g.mass (n + 1)) (g.mass (n + 1)) :=
          mul_le_mul_of_nonneg_left hprod hw.le
      _ = 1 := by
          have hne : (∏ n ∈ Finset.range (g.nt - 1), q (g.te + psum g.mass (n + 2)) (psum g.mass (n + 1)) (g.mass (n + 1))) ≠ 0 := by
            intro h0
            rw [hg.wt, h0] at hw
            norm_num at hw
          rw [hg.wt, one_div, inv_mul_cancel₀ hne]

/-! ### The boost chain -/

theorem turn_add (cZ sZ cY sY b g : ℝ) (f : Nat → V4) (n : Nat) :
    (∑ j ∈ Finset.range n, (turn cZ sZ cY sY b g (f j)).x = cY * (cZ * (∑ j ∈ Finset.range n, (f j).x) -
      sZ * (∑ j ∈ Finset.range n, (f j).y)) - sY * (∑ j ∈ Finset.range n, (f j).z)) ∧
    (∑ j ∈ Finset.range n, (turn cZ sZ cY sY b g (f j)).y = g * (sZ * (∑ j ∈ Finset.range n, (f j).x) +
      cZ * (∑ j ∈ Finset.range n, (f j).y) + b * (∑ j ∈ Finset.range n, (f j).e))) ∧
    (∑ j ∈ Finset.range n, (turn cZ sZ cY sY b g (f j)).z = sY * (cZ * (∑ j ∈ Finset.range n, (f j).x) -
      sZ * (∑ j ∈ Finset.range n, (f j).y)) + cY * (∑ j ∈ Finset.range n, (f j).z)) ∧
    (∑ j ∈ Finset.range n, (turn cZ sZ cY sY b g (f j)).e = g * ((∑ j ∈ Finset.range n, (f j).e) +
      b * (sZ * (∑ j ∈ Finset.range n, (f j).x) + cZ * (∑ j ∈ Finset.range n, (f j).y)))) := by
  induction n with
  | zero => simp
  | succ n ih =>
    obtain ⟨h1, h2, h3, h4⟩ := ih
    simp only [Finset.sum_range_succ]
    rw [h1, h2, h3, h4]
    simp only [turn]
    refine ⟨by ring, by ring, by ring, by ring⟩

theorem turn_onShell {cZ sZ cY sY b g m : ℝ} (hZ : cZ ^ 2 + sZ ^ 2 = 1) (hY : cY ^ 2 + sY ^ 2 = 1)
    (hg : g ^ 2 * (1 - b ^ 2) = 1) (hg0 : 0 ≤ g) (hb : |b| ≤ 1) {v : V4} (hv : OnShell m v) :
    OnShell m (turn cZ sZ cY sY b g v) := by
  obtain ⟨h1, h2⟩ := hv
  set k := sZ * v.x + cZ * v.y with hk
  have hk2 : k ^ 2 + (cZ * v.x - sZ * v.y) ^ 2 = v.x ^ 2 + v.y ^ 2 := by
    rw [hk]; linear_combination (v.x ^ 2 + v.y ^ 2) * hZ
  constructor
  · simp only [turn, ← hk]
    have e1 : (cY * (cZ * v.x - sZ * v.y) - sY * v.z) ^ 2 + (sY * (cZ * v.x - sZ * v.y) + cY * v.z) ^ 2 =
        (cZ * v.x - sZ * v.y) ^ 2 + v.z ^ 2 := by
      linear_combination ((cZ * v.x - sZ * v.y) ^ 2 + v.z ^ 2) * hY
    have e2 : (g * (v.e + b * k)) ^ 2 - (g * (k + b * v.e)) ^ 2 = v.e ^ 2 - k ^ 2 := by
      linear_combination (v.e ^ 2 - k ^ 2) * hg
    linear_combination e2 - e1 + h1 - hk2
  · show 0 ≤ g * (v.e + b * k)
    apply mul_nonneg hg0
    have hke : |k| ≤ v.e := by
      apply abs_le_of_sq_le_sq _ h2
      nlinarith [sq_nonneg (cZ * v.x - sZ * v.y), sq_nonneg v.z, sq_nonneg m]
    have hbk : |b * k| ≤ v.e := by
      rw [abs_mul]
      calc |b| * |k| ≤ 1 * |k| := mul_le_mul_of_nonneg_right hb (abs_nonneg _)
        _ ≤ v.e := by rw [one_mul]; exact hke
    have := neg_abs_le (b * k)
    linarith

theorem cz_sz {a : ℝ} (h0 : 0 < a) (h1 : a < 1) : (2 * a - 1) ^ 2 + √(1 - (2 * a - 1) * (2 * a - 1)) ^ 2 = 1 := by
  rw [Real.sq_sqrt (by nlinarith)]
  ring

/-- Velocity and Lorentz factor of a body of mass `M > 0` and momentum `p ≥ 0`. -/
theorem beta_gamma {p M : ℝ} (hp : 0 ≤ p) (hM : 0 < M) :
    let b := p / √(p * p + M * M)
    let g := 1 / √(1 - b * b)
    g ^ 2 * (1 - b ^ 2) = 1 ∧ 0 ≤ g ∧ |b| ≤ 1 ∧ g * (b * M) = p ∧ g * M = √(p * p + M * M) := by
  intro b g
  set E := √(p * p + M * M) with hE
  have hE2 : E * E = p * p + M * M := Real.mul_self_sqrt (by positivity)
  have hE0 : 0 < E := Real.sqrt_pos.mpr (by positivity)
  have hpE : p < E := by nlinarith
  have hb : b = p / E := rfl
  have hb0 : 0 ≤ b := by rw [hb]; positivity
  have hb1 : b < 1 := by rw [hb, div_lt_one hE0]; exact hpE
  have h1b : 1 - b * b = (M / E) ^ 2 := by
    rw [hb]; field_simp; linarith
  have hg : g = E / M := by
    show 1 / √(1 - b * b) = _
    rw [h1b, Real.sqrt_sq (by positivity), one_div_div]
  refine ⟨?_, ?_, ?_, ?_, ?_⟩
  · rw [pow_two b, h1b, hg]; field_simp
  · rw [hg]; positivity
  · rw [abs_of_nonneg hb0]; exact hb1.le
  · rw [hg, hb]; field_simp
  · rw [hg]; field_simp

/-- Invariant mass squared of the first `n` particles. -/
noncomputable def quad (out : Nat → V4) (n : Nat) : ℝ :=
  (∑ j ∈ Finset.range n, (out j).e) ^ 2 - (∑ j ∈ Finset.range n, (out j).x) ^ 2 -
    (∑ j ∈ Finset.range n, (out j).y) ^ 2 - (∑ j ∈ Finset.range n, (out j).z) ^ 2

theorem turn_quad {cZ sZ cY sY b g : ℝ} (hZ : cZ ^ 2 + sZ ^ 2 = 1) (hY : cY ^ 2 + sY ^ 2 = 1)
    (hg : g ^ 2 * (1 - b ^ 2) = 1) (f : Nat → V4) (n : Nat) :
    quad (fun j => turn cZ sZ cY sY b g (f j)) n = quad f n := by
  unfold quad
  obtain ⟨t1, t2, t3, t4⟩ := turn_add cZ sZ cY sY b g f n
  rw [t1, t2, t3, t4]
  generalize (∑ j ∈ Finset.range n, (f j).x) = X
  generalize (∑ j ∈ Finset.range n, (f j).y) = Y
  generalize (∑ j ∈ Finset.range n, (f j).z) = Z
  generalize (∑ j ∈ Finset.range n, (f j).e) = E
  linear_combination (E ^ 2 - (sZ * X + cZ * Y) ^ 2) * hg - ((cZ * X - sZ * Y) ^ 2 + Z ^ 2) * hY - (X ^ 2 + Y ^ 2) * hZ

theorem quad_congr {f f' : Nat → V4} {n : Nat} (h : ∀ j < n, f j = f' j) : quad f n = quad f' n := by
  have : ∀ F : V4 → ℝ, ∑ j ∈ Finset.range n, F (f j) = ∑ j ∈ Finset.range n, F (f' j) := fun F =>
    Finset.sum_congr rfl fun j hj => by rw [h j (Finset.mem_range.mp hj)]
  unfold quad
  rw [this V4.x, this V4.y, this V4.z, this V4.e]

/-- After step `i` the first `i + 1` particles are on shell and recoil with momentum `p i` along y, or are at
rest if `i` is the last. -/
structure Placed (g : Gen) (M p : Nat → ℝ) (i : Nat) (out : Nat → V4) : Prop where
  shell : ∀ j ≤ i, OnShell (g.mass j) (out j)
  sx : ∑ j ∈ Finset.range (i + 1), (out j).x = 0
  sy : ∑ j ∈ Finset.range (i + 1), (out j).y = if i = g.nt - 1 then 0 else p i
  sz : ∑ j ∈ Finset.range (i + 1), (out j).z = 0
  se : ∑ j ∈ Finset.range (i + 1), (out j).e = if i = g.nt - 1 then M i else √(p i * p i + M i * M i)
  sub : ∀ k ≤ i, quad out (k + 1) = M k ^ 2

theorem place_spec {g : Gen} {M p : Nat → ℝ} {i : Nat} (hi : i + 1 < g.nt) (hp0 : ∀ n, n < g.nt - 1 → 0 ≤ p n)
    (hM : 0 < M (i + 1))
    (hq : √(p i * p i + M i * M i) + √(p i * p i + g.mass (i + 1) * g.mass (i + 1)) = M (i + 1))
    {a b : ℝ} (ha : 0 < a ∧ a < 1) {out : Nat → V4} (h : Placed g M p i out) :
    Placed g M p (i + 1) (place g M p a b (i + 1) out) := by
  have hne : i ≠ g.nt - 1 := by omega
  set out1 := Function.update out (i + 1) ⟨0, -p i, 0, √(p i * p i + g.mass (i + 1) * g.mass (i + 1))⟩ with hout1
  have hold : ∀ j ≤ i, out1 j = out j := fun j hj => Function.update_of_ne (by omega) _ _
  have hnew : out1 (i + 1) = ⟨0, -p i, 0, √(p i * p i + g.mass (i + 1) * g.mass (i + 1))⟩ := Function.update_self ..
  have hsum : ∀ F : V4 → ℝ, ∑ j ∈ Finset.range (i + 1 + 1), F (out1 j) =
      ∑ j ∈ Finset.range (i + 1), F (out j) + F (out1 (i + 1)) := by
    intro F
    rw [Finset.sum_range_succ]
    congr 1
    apply Finset.sum_congr rfl
    intro j hj
    rw [hold j (by have := Finset.mem_range.mp hj; omega)]
  have X : ∑ j ∈ Finset.range (i + 1 + 1), (out1 j).x = 0 := by rw [hsum, h.sx, hnew]; simp
  have Y : ∑ j ∈ Finset.range (i + 1 + 1), (out1 j).y = 0 := by rw [hsum, h.sy, hnew, if_neg hne]; simp
  have Z : ∑ j ∈ Finset.range (i + 1 + 1), (out1 j).z = 0 := by rw [hsum, h.sz, hnew]; simp
  have E : ∑ j ∈ Finset.range (i + 1 + 1), (out1 j).e = M (i + 1) := by
    rw [hsum, h.se, hnew, if_neg hne]; exact hq
  have hshell : ∀ j ≤ i + 1, OnShell (g.mass j) (out1 j) := by
    intro j hj
    rcases Nat.lt_or_ge i j with hj' | hj'
    · have : j = i + 1 := by omega
      subst this
      rw [hnew]
      refine ⟨?_, Real.sqrt_nonneg _⟩
      simp only
      rw [Real.sq_sqrt (by nlinarith [mul_self_nonneg (p i), mul_self_nonneg (g.mass (i + 1))])]
      ring
    · rw [hold j hj']; exact h.shell j hj'
  set cZ := 2 * a - 1
  set sZ := √(1 - cZ * cZ)
  set cY := Real.cos (2 * Real.pi * b)
  set sY := Real.sin (2 * Real.pi * b)
  set beta := if i + 1 = g.nt - 1 then 0 else p (i + 1) / √(p (i + 1) * p (i + 1) + M (i + 1) * M (i + 1)) with hbeta
  set gamma := if i + 1 = g.nt - 1 then 1 else 1 / √(1 - beta * beta) with hgamma
  have hplace : ∀ j < i + 1 + 1, place g M p a b (i + 1) out j = turn cZ sZ cY sY beta gamma (out1 j) := by
    intro j hj
    exact if_pos (show j ≤ i + 1 by omega)
  have hZ : cZ ^ 2 + sZ ^ 2 = 1 := cz_sz ha.1 ha.2
  have hY : cY ^ 2 + sY ^ 2 = 1 := Real.cos_sq_add_sin_sq _
  have hlor : gamma ^ 2 * (1 - beta ^ 2) = 1 ∧ 0 ≤ gamma ∧ |beta| ≤ 1 ∧
      gamma * (beta * M (i + 1)) = (if i + 1 = g.nt - 1 then 0 else p (i + 1)) ∧
      gamma * M (i + 1) = (if i + 1 = g.nt - 1 then M (i + 1) else √(p (i + 1) * p (i + 1) + M (i + 1) * M (i + 1))) := by
    by_cases hl : i + 1 = g.nt - 1
    · simp only [hgamma, hbeta, if_pos hl]
      norm_num
    · have := beta_gamma (hp0 (i + 1) (by omega)) hM
      simp only [hgamma, hbeta, if_neg hl]
      exact this
  obtain ⟨l1, l2, l3, l4, l5⟩ := hlor
  obtain ⟨t1, t2, t3, t4⟩ := turn_add cZ sZ cY sY beta gamma out1 (i + 1 + 1)
  have hs : ∀ F : V4 → ℝ, ∑ j ∈ Finset.range (i + 1 + 1), F (place g M p a b (i + 1) out j) =
      ∑ j ∈ Finset.range (i + 1 + 1), F (turn cZ sZ cY sY beta gamma (out1 j)) := fun F =>
    Finset.sum_congr rfl fun j hj => by rw [hplace j (Finset.mem_range.mp hj)]
  refine ⟨?_, ?_, ?_, ?_, ?_, ?_⟩
  · intro j hj
    rw [hplace j (by omega)]
    exact turn_onShell hZ hY l1 l2 l3 (hshell j hj)
  · rw [hs V4.x, t1, X, Y, Z]; ring
  · rw [hs V4.y, t2, X, Y, E, ← l4]; ring
  · rw [hs V4.z, t3, X, Y, Z]; ring
  · rw [hs V4.e, t4, X, Y, E, ← l5]; ring
  · intro k hk
    rw [quad_congr (f' := fun j => turn cZ sZ cY sY beta gamma (out1 j)) fun j hj => hplace j (by omega),
      turn_quad hZ hY l1]
    rcases Nat.lt_or_ge i k with hk' | hk'
    · obtain rfl : k = i + 1 := by omega
      unfold quad
      rw [X, Y, Z, E]; ring
    · rw [quad_congr fun j hj => hold j (by omega)]
      exact h.sub k hk'

/-! ### The accept/reject loop -/

theorem accept_some {g : Gen} {r : Nat → ℝ} : ∀ {fuel pos p : Nat}, accept g r fuel pos = some p →
    ¬ weight g (draws r p) < r (p + (g.nt - 2))
  | 0, _, _, h => by simp [accept] at h
  | fuel + 1, pos, p, h => by
    unfold accept at h
    split at h
    · exact accept_some h
    · rename_i hn
      cases h
      exact hn

theorem draws_variates {r : Nat → ℝ} (hr : Variates r) (pos : Nat) : ∀ k, 0 < draws r pos k ∧ draws r pos k < 1 :=
  fun k => hr (pos + k)

theorem chain_spec {g : Gen} {m0 : ℝ} (hg : Ready g m0) {u : Nat → ℝ} (hu : ∀ k, 0 < u k ∧ u k < 1) (junk : Nat → ℝ)
    {r : Nat → ℝ} (hr : Variates r) (next : Nat) (out0 : Nat → V4) :
    ∀ n, n ≤ g.nt - 1 → Placed g (invMas g u) (pd g u junk) n
      ((List.range' 1 n).foldl (fun o i => place g (invMas g u) (pd g u junk) (r (next + 2 * (i - 1)))
        (r (next + 2 * (i - 1) + 1)) i o)
        (Function.update out0 0 ⟨0, pd g u junk 0, 0, √(pd g u junk 0 * pd g u junk 0 + g.mass 0 * g.mass 0)⟩)) := by
  have htwo := hg.two
  have hpd : ∀ n, n < g.nt - 1 → pd g u junk n = q (invMas g u (n + 1)) (invMas g u n) (g.mass (n + 1)) :=
    fun n hn => if_pos hn
  intro n
  induction n with
  | zero =>
    intro _
    have hne : (0 : Nat) ≠ g.nt - 1 := by omega
    simp only [List.range'_zero, List.foldl_nil]
    refine ⟨?_, ?_, ?_, ?_, ?_, ?_⟩
    · intro j hj
      obtain rfl : j = 0 := by omega
      rw [Function.update_self]
      refine ⟨?_, Real.sqrt_nonneg _⟩
      simp only
      rw [Real.sq_sqrt (by nlinarith [mul_self_nonneg (pd g u junk 0), mul_self_nonneg (g.mass 0)])]
      ring
    · simp
    · simp [hne]
    · simp
    · simp [hne, invMas_zero hg u]
    · intro k hk
      obtain rfl : k = 0 := by omega
      have hnn : 0 ≤ pd g u junk 0 * pd g u junk 0 + g.mass 0 * g.mass 0 := by
        nlinarith [mul_self_nonneg (pd g u junk 0), mul_self_nonneg (g.mass 0)]
      simp only [quad, Finset.sum_range_one, Function.update_self, zero_add]
      rw [Real.sq_sqrt hnn, invMas_zero hg u]
      ring
  | succ n ih =>
    intro hn
    have hlt : n + 1 < g.nt := by omega
    rw [List.range'_concat, List.foldl_append]
    simp only [List.foldl_cons, List.foldl_nil]
    have e : 1 + 1 * n = n + 1 := by omega
    rw [e]
    apply place_spec hlt
    · intro k hk; rw [hpd k hk]; exact q_nonneg _ _ _
    · exact invMas_pos hg hu (by omega) hlt
    · rw [hpd n (by omega)]
      apply energy_add (invMas_pos hg hu (by omega) hlt)
      · exact (psum_nonneg hg.mass _).trans (invMas_low hg hu (by omega))
      · exact hg.mass _
      · exact invMas_step hg hu hlt
    · exact hr _
    · exact ih (by omega)

end AmpGen.PhaseSpace
