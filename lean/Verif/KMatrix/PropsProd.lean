import Verif.KMatrix.PropsUnitary
/-
Theorems about the lineshape `kMatrix` and the production amplitudes.  The words are those of `Spec.lean`.
-/
namespace AmpGen.KMatrix
open Spec Complex

/-! ### The lineshape `kMatrix` -/

theorem foldl_add {α K : Type} [AddCommMonoid K] (g : α → K) (l : List α) (x : K) :
    l.foldl (fun (sum : K) (p : α) => sum + g p) x = x + (l.map g).sum := by
  induction l generalizing x with
  | nil => simp
  | cons p l ih => rw [List.foldl_cons, ih, List.map_cons, List.sum_cons, add_assoc]

theorem loop_succ {σ : Type} (n : Nat) (body : Nat → σ → σ) (s : σ) : loop 0 (n + 1) body s = body n (loop 0 n body s) := by
  unfold loop
  rw [Nat.sub_zero, Nat.sub_zero, List.range'_concat, List.foldl_append]
  simp

theorem scattPart_value {K : Type} [Field K] (f : Nat → K) (s s0 : K) : ∀ (n i j : Nat), i < n → j < n →
    scattPart n f s s0 (i, j) = (if i = 0 then f j else if j = 0 then f i else 0) * (1 - s0) / (s - s0) := by
  have zero : ∀ n i j, (n ≤ i ∨ n ≤ j) → scattPart n f s s0 (i, j) = 0 := by
    intro n
    induction n with
    | zero => intro i j _; rfl
    | succ n ih =>
      intro i j h
      unfold scattPart at ih ⊢
      rw [loop_succ]
      simp only [put, apart, Prod.mk.injEq]
      rw [if_neg (by omega), if_neg (by omega), ih i j (by omega)]
  intro n
  induction n with
  | zero => intro i j h; omega
  | succ n ih =>
    intro i j hi hj
    by_cases h : i < n ∧ j < n
    · have := ih i j h.1 h.2
      unfold scattPart at this ⊢
      rw [loop_succ]
      simp only [put, apart, Prod.mk.injEq]
      rw [if_neg (by omega), if_neg (by omega), this]
    · have hz := zero n i j (by omega)
      unfold scattPart at hz ⊢
      rw [loop_succ]
      simp only [put, apart, Prod.mk.injEq]
      by_cases h1 : i = 0 ∧ j = n
      · rw [if_pos h1, if_pos h1.1, h1.2]
      · rw [if_neg h1]
        by_cases h2 : i = n ∧ j = 0
        · rw [if_pos h2, if_neg (by omega), if_pos h2.2, h2.1]
        · rw [if_neg h2, hz, if_neg (by omega), if_neg (by omega)]
          simp

/-- The elements are those of the literature, if the option `kMatrix::fp` is false. -/
theorem lineshape_kmatrix (n : Nat) (s : ℂ) (poles : List (ℂ × (Nat → ℂ))) (f : Nat → ℂ) (s0 adler : ℂ) (i j : Nat) (hi : i < n) (hj : j < n) :
    lineshapeKMatrix n s (poles.map fun p => lineshapePole 0 p.1 p.2) f s0 adler (i, j) = kElement s poles f s0 adler i j := by
  unfold lineshapeKMatrix kElement constructKMatrix symmetric
  by_cases h : j > i
  · rw [if_pos h, scattPart_value f s s0 n j i hj hi, foldl_add, List.map_map, zero_add, mul_div_assoc]
    congr 2
    · congr 1
      apply List.map_congr_left
      intro p _
      simp only [Function.comp_apply, lineshapePole, add_zero]
      rw [mul_comm (p.2 j), sq]
    · have hj0 : ¬ j = 0 := by omega
      rw [if_neg hj0, if_neg hj0]
  · rw [if_neg h, scattPart_value f s s0 n i j hi hj, foldl_add, List.map_map, zero_add, mul_div_assoc]
    congr 2
    congr 1
    apply List.map_congr_left
    intro p _
    simp only [Function.comp_apply, lineshapePole, add_zero]
    rw [sq]

/-- Real masses, couplings and invariant mass, no pole at the invariant mass, the option `kMatrix::fp` false: the scattering amplitude of the
lineshape is unitary above and below all thresholds with real phase space. -/
theorem lineshape_unitary_partial (quot : ℂ → ℂ → ℂ) (hq : IsDivision quot) (n : Nat) (s : ℝ) (poles : List (ℝ × (Nat → ℝ))) (f : Nat → ℝ)
    (s0 adler : ℝ) (ρ : Nat → ℝ) (hρ : ∀ i, 0 ≤ ρ i) (_hp : ∀ p ∈ poles, p.1 ^ 2 ≠ s) (_hs : s ≠ s0) :
    let k := lineshapeKMatrix n (s : ℂ) (poles.map fun p => lineshapePole 0 (p.1 : ℂ) fun i => (p.2 i : ℂ)) (fun i => (f i : ℂ)) s0 adler
    Unitary n (fun i => ρ i) (scatt n k (getPropagator quot I n k fun i => (ρ i : ℂ))) := by
  intro k
  have hsym : ∀ i j, k (i, j) = k (j, i) := by
    intro i j
    simp only [k, lineshapeKMatrix, symmetric]
    rcases Nat.lt_trichotomy i j with h | h | h
    · rw [if_pos h, if_neg (by omega)]
    · rw [h]
    · rw [if_neg (by omega), if_pos h]
  have hreal : ∀ i j, ∃ x : ℝ, k (i, j) = x := by
    intro i j
    have h1 : ∀ p, ∃ x : ℝ, constructKMatrix (s : ℂ) (poles.map fun p => lineshapePole 0 (p.1 : ℂ) fun i => (p.2 i : ℂ)) p = x := by
      intro p
      unfold constructKMatrix
      rw [foldl_add, List.map_map, zero_add]
      clear _hp k hsym
      induction poles with
      | nil => exact ⟨0, by simp⟩
      | cons q l ih =>
        obtain ⟨x, hx⟩ := ih
        refine ⟨q.2 p.1 * q.2 p.2 / (q.1 * q.1 - s) + x, ?_⟩
        rw [List.map_cons, List.sum_cons, hx]
        simp [lineshapePole]
    have h2 : ∀ p, ∃ x : ℝ, scattPart n (fun i => (f i : ℂ)) (s : ℂ) s0 p = x := by
      intro p
      clear k hsym
      induction n with
      | zero => exact ⟨0, by simp [scattPart, loop]⟩
      | succ n ih =>
        obtain ⟨x, hx⟩ := ih
        unfold scattPart at hx ⊢
        rw [loop_succ]
        simp only [put]
        by_cases h1 : p = apart (0, n)
        · rw [if_pos h1]
          exact ⟨f n * (1 - s0) / (s - s0), by push_cast; rfl⟩
        · rw [if_neg h1]
          by_cases h2 : p = apart (n, 0)
          · rw [if_pos h2]
            exact ⟨f n * (1 - s0) / (s - s0), by push_cast; rfl⟩
          · rw [if_neg h2]
            exact ⟨x, hx⟩
    obtain ⟨x, hx⟩ := h1 (symmetric (i, j))
    obtain ⟨y, hy⟩ := h2 (symmetric (i, j))
    refine ⟨(x + y) * adler, ?_⟩
    simp only [k, lineshapeKMatrix]
    rw [hx, hy]
    push_cast
    rfl
  refine kmatrix_unitary quot hq n k ρ ⟨fun i j => ?_, hsym⟩ hρ
  obtain ⟨x, hx⟩ := hreal i j
  rw [hx, ofReal_im]

/-- Two poles, five channels. -/
example : ∃ (s : ℝ) (poles : List (ℝ × (Nat → ℝ))) (s0 : ℝ), poles.length = 2 ∧ (∀ p ∈ poles, p.1 ^ 2 ≠ s) ∧ s ≠ s0 ∧
    kElement s (poles.map fun p => ((p.1 : ℂ), fun i => (p.2 i : ℂ))) (fun _ => 0) s0 1 0 1 ≠ 0 := by
  refine ⟨0, [(1, fun _ => 1), (2, fun i => i)], -1, rfl, ?_, by norm_num, ?_⟩
  · intro p hp
    simp only [List.mem_cons, List.not_mem_nil, or_false] at hp
    rcases hp with rfl | rfl <;> norm_num
  · simp [kElement]

/-- With the option `kMatrix::fp` true, which is the default, the imaginary part of the squared masses breaks unitarity: five channels, one
pole that couples to the first. -/
theorem lineshape_unitary_counterexample (quot : ℂ → ℂ → ℂ) (hq : IsDivision quot) :
    ∃ (s mass : ℝ) (g : Nat → ℝ) (ρ : Nat → ℝ), (∀ i, 0 ≤ ρ i) ∧ mass ^ 2 ≠ s ∧
      let k := lineshapeKMatrix 5 (s : ℂ) [lineshapePole (I * (1 / 1000000 : ℝ)) (mass : ℂ) fun i => (g i : ℂ)] (fun _ => 0) (-1) 1
      ¬ Unitary 5 (fun i => ρ i) (scatt 5 k (getPropagator quot I 5 k fun i => (ρ i : ℂ))) := by
  refine ⟨0, 1, fun i => if i = 0 then 1 else 0, fun i => if i = 0 then 1 else 0, fun i => by
    beta_reduce
    split <;> norm_num, by norm_num, ?_⟩
  intro k ⟨_, hU⟩
  obtain ⟨c, hc⟩ : ∃ c : ℂ, 1 + I * (1 / 1000000 : ℝ) = c := ⟨_, rfl⟩
  have hre : c.re = 1 := by rw [← hc]; simp
  have him : c.im = 1 / 1000000 := by rw [← hc]; simp
  have hc0 : c ≠ 0 := fun h => by rw [h] at hre; simp at hre
  have hk0 : ∀ p, p ≠ (0, 0) → p.1 < 5 → p.2 < 5 → k p = 0 := by
    intro p hp h1 h2
    obtain ⟨i, j⟩ := p
    have h00 : ¬ (i = 0 ∧ j = 0) := by simpa using hp
    have hs : ∀ a b, a < 5 → b < 5 → scattPart 5 (fun _ => (0 : ℂ)) ((0 : ℝ) : ℂ) (-1) (a, b) = 0 := by
      intro a b ha hb
      rw [scattPart_value _ _ _ 5 a b ha hb]
      simp
    simp only [k, lineshapeKMatrix, symmetric, constructKMatrix, List.foldl_cons, List.foldl_nil]
    split
    · rw [hs j i h2 h1]
      by_cases hi : i = 0
      · have : ¬ j = 0 := fun h => h00 ⟨hi, h⟩
        simp [this, lineshapePole]
      · simp [hi, lineshapePole]
    · rw [hs i j h1 h2]
      by_cases hi : i = 0
      · have : ¬ j = 0 := fun h => h00 ⟨hi, h⟩
        simp [this, lineshapePole]
      · simp [hi, lineshapePole]
  have hk1 : k (0, 0) = 1 / c := by
    simp only [k, lineshapeKMatrix, symmetric, constructKMatrix, List.foldl_cons, List.foldl_nil]
    rw [if_neg (by simp), scattPart_value _ _ _ 5 0 0 (by norm_num) (by norm_num), ← hc]
    simp [lineshapePole]
  have hci : c - I ≠ 0 := by
    intro h
    have := congrArg re h
    rw [sub_re, hre] at this
    simp at this
  have hm : LeadingMinors 5 (propagatorMatrix I k fun i => (((if i = 0 then 1 else 0 : ℝ)) : ℂ)) := by
    intro m hm
    have hd : matrix m (propagatorMatrix I k fun i => (((if i = 0 then 1 else 0 : ℝ)) : ℂ)) =
        Matrix.diagonal fun i : Fin m => if (i : Nat) = 0 then 1 - I * (1 / c) else 1 := by
      ext i j
      simp only [matrix, propagatorMatrix, Matrix.of_apply, Matrix.diagonal_apply]
      by_cases hij : i = j
      · subst hij
        rw [if_pos rfl, if_pos rfl]
        by_cases hi : (i : Nat) = 0
        · rw [if_pos hi, if_pos hi, hi, hk1]; simp
        · rw [if_neg hi, if_neg hi]; simp
      · rw [if_neg hij, if_neg (fun h => hij (Fin.ext h)), hk0 _ (fun h => hij (Fin.ext (by
          rw [Prod.mk.injEq] at h; rw [h.1, h.2]))) (lt_of_lt_of_le i.2 hm) (lt_of_lt_of_le j.2 hm)]
        simp
    rw [hd, Matrix.det_diagonal, Finset.prod_ne_zero_iff]
    intro i _
    split
    · rw [sub_ne_zero, mul_one_div]
      intro h
      rw [eq_div_iff hc0, one_mul] at h
      exact hci (sub_eq_zero.2 h)
    · exact one_ne_zero
  obtain ⟨h1, _⟩ := invert_partial quot hq 5 _ hm
  change matrix 5 _ * matrix 5 (getPropagator quot I 5 k fun i => (((if i = 0 then 1 else 0 : ℝ)) : ℂ)) = 1 at h1
  obtain ⟨F, hF⟩ : ∃ F, getPropagator quot I 5 k (fun i => (((if i = 0 then 1 else 0 : ℝ)) : ℂ)) = F := ⟨_, rfl⟩
  rw [hF] at h1 hU
  have hF0 : (1 - I * (1 / c)) * F (0, 0) = 1 := by
    have := congrFun (congrFun h1 0) 0
    rw [Matrix.mul_apply, Fin.sum_univ_five] at this
    simp only [matrix, propagatorMatrix, Matrix.of_apply] at this
    simpa [hk1] using this
  have hT : ∀ j, j < 5 → scatt 5 k F 0 j = 1 / c * F (j, 0) := by
    intro j hj
    unfold scatt
    rw [loop_sum]
    rw [Finset.sum_eq_single 0]
    · rw [hk1]
    · intro b hb hb0
      rw [hk0 (b, 0) (by simpa using hb0) (by simpa using hb) (by norm_num), zero_mul]
    · intro h; exact absurd h (by simp)
  have hT0 : scatt 5 k F 0 0 = (c - I)⁻¹ := by
    rw [hT 0 (by norm_num), ← mul_eq_one_iff_eq_inv₀ hci]
    have : 1 / c * (c - I) = 1 - I * (1 / c) := by field_simp
    calc 1 / c * F (0, 0) * (c - I) = (1 / c * (c - I)) * F (0, 0) := by ring
      _ = 1 := by rw [this, hF0]
  have h := hU 0 0 (by norm_num) (by norm_num)
  rw [Finset.sum_eq_single 0, hT0] at h
  · have e : ((((if (0 : Nat) = 0 then (1 : ℝ) else 0) : ℝ) : ℂ)).re = 1 := by simp
    rw [e, ofReal_one, one_mul, map_inv₀] at h
    obtain ⟨x, hx⟩ : ∃ x, c - I = x := ⟨_, rfl⟩
    rw [hx] at h hci
    have hxi : x.im = 1 / 1000000 - 1 := by rw [← hx, sub_im, him, I_im]
    have hcx : (starRingEnd ℂ) x ≠ 0 := by simpa using hci
    have h3 : (starRingEnd ℂ) x - x = 2 * I := by
      have := congrArg (fun y => y * (x * (starRingEnd ℂ) x)) h
      rw [show 2 * I * (x⁻¹ * ((starRingEnd ℂ) x)⁻¹) * (x * (starRingEnd ℂ) x) = 2 * I by field_simp,
        show (x⁻¹ - ((starRingEnd ℂ) x)⁻¹) * (x * (starRingEnd ℂ) x) = (starRingEnd ℂ) x - x by field_simp] at this
      exact this
    have h4 := congrArg im h3
    rw [sub_im, conj_im, hxi] at h4
    norm_num at h4
  · intro b _ hb0
    simp [hb0]
  · intro h; exact absurd h (by simp)

/-! ### Production amplitudes -/

theorem pVector_inner {K : Type} [Field K] (a u v : Nat → K) (x y : K) (n : Nat) :
    loop 0 n (fun q (r : K × K) => (r.1 + a q * u q, r.2 + a q * v q)) (x, y) =
      (x + ∑ q ∈ Finset.range n, a q * u q, y + ∑ q ∈ Finset.range n, a q * v q) := by
  induction n with
  | zero => simp [loop]
  | succ n ih => rw [loop_succ, ih, Finset.sum_range_succ, Finset.sum_range_succ, ← add_assoc, ← add_assoc]

theorem pVector_fold {K : Type} [Field K] (n : Nat) (s s0 : K) (poles : List (Pole K)) (a : Nat → K) (nr : Data K) (k : Nat) (v : PVec K) :
    (poles.foldl (fun (v : PVec K) (pole : Pole K) =>
      let r := loop 0 n (fun q (r : K × K) => (r.1 + a q * pole.couplings q, r.2 + a q * nr (k, q))) (0, v.phi)
      ⟨v.P + ((r.1 * pole.couplings k) / (pole.s - s) + r.2 * (1 + s0) / (s - s0)), r.2⟩) v).P =
    v.P + (poles.map fun p => (∑ q ∈ Finset.range n, a q * p.couplings q) * p.couplings k / (p.s - s)).sum +
      (poles.length * v.phi + ((poles.length * (poles.length + 1) / 2 : Nat) : K) * ∑ q ∈ Finset.range n, a q * nr (k, q)) * (1 + s0) / (s - s0) := by
  induction poles generalizing v with
  | nil => simp
  | cons p l ih =>
    rw [List.foldl_cons, ih]
    simp only [pVector_inner, zero_add, List.map_cons, List.sum_cons, List.length_cons]
    have e : (l.length + 1) * (l.length + 1 + 1) / 2 = l.length * (l.length + 1) / 2 + (l.length + 1) := by
      rw [show (l.length + 1) * (l.length + 1 + 1) = l.length * (l.length + 1) + (l.length + 1) * 2 by ring, Nat.add_mul_div_right _ _ (by norm_num)]
    rw [e]
    push_cast
    ring

/-- With one pole the production amplitude is the sum of the P-vector, propagated into the first channel. -/
theorem pvector_partial (n : Nat) (s s0 : ℂ) (pole : ℂ × (Nat → ℂ)) (a : Nat → ℂ) (background F : Data ℂ) :
    pVectorAmplitude n s s0 [⟨pole.1, pole.2⟩] a background F =
      ∑ k ∈ Finset.range n, F (0, k) * pElement n s s0 [pole] a background k := by
  unfold pVectorAmplitude
  rw [loop_sum, Finset.range_eq_Ico]
  apply Finset.sum_congr rfl
  intro k _
  unfold pVector pElement
  rw [pVector_fold]
  simp [mul_div_assoc]

/-- In general the background of the P-vector comes `N (N + 1) / 2` times, where `N` is the number of poles. -/
theorem pvector_value (n : Nat) (s s0 : ℂ) (poles : List (ℂ × (Nat → ℂ))) (a : Nat → ℂ) (background F : Data ℂ) :
    pVectorAmplitude n s s0 (poles.map fun p => ⟨p.1, p.2⟩) a background F =
      ∑ k ∈ Finset.range n, F (0, k) *
        pElement n s s0 poles a (fun p => ((poles.length * (poles.length + 1) / 2 : Nat) : ℂ) * background p) k := by
  unfold pVectorAmplitude
  rw [loop_sum, Finset.range_eq_Ico]
  apply Finset.sum_congr rfl
  intro k _
  unfold pVector pElement
  rw [pVector_fold]
  simp only [List.map_map, List.length_map, mul_zero, zero_add, mul_div_assoc, Function.comp_def, mul_left_comm (a _), ← Finset.mul_sum]

/-- Two poles. -/
theorem pvector_counterexample : ∃ (s s0 : ℂ) (poles : List (ℂ × (Nat → ℂ))) (a : Nat → ℂ) (background F : Data ℂ),
    poles.length = 2 ∧ s ≠ s0 ∧ (∀ p ∈ poles, p.1 ≠ s) ∧
    pVectorAmplitude 1 s s0 (poles.map fun p => ⟨p.1, p.2⟩) a background F ≠
      ∑ k ∈ Finset.range 1, F (0, k) * pElement 1 s s0 poles a background k := by
  refine ⟨1, 0, [(2, fun _ => 0), (3, fun _ => 0)], fun _ => 1, fun _ => 1, fun _ => 1, rfl, by norm_num, ?_, ?_⟩
  · intro p hp
    simp only [List.mem_cons, List.not_mem_nil, or_false] at hp
    rcases hp with rfl | rfl <;> norm_num
  · rw [pvector_value]
    simp [pElement]

/-- The Q-vector is the elastic scattering amplitude of the first channel. -/
theorem qvector_elastic {K : Type} [Field K] (n : Nat) (k F : Data K) : qVectorAmplitude n k F = scatt n k F 0 0 := rfl

/-- The Z-vector is the term that the modifier `pole` of the other lineshape gives: the couplings of the pole, propagated into the channel. -/
theorem zvector_value {K : Type} [Field K] (n : Nat) (s : K) (pole : Pole K) (F : Data K) (channel : Nat) :
    zVectorAmplitude n s pole F channel = (∑ i ∈ Finset.range n, F (channel, i) * pole.couplings i) / (pole.s - s) ∧
    poleTerm n s pole F channel = (∑ i ∈ Finset.range n, F (channel, i) * pole.couplings i) / (pole.s - s) := by
  unfold zVectorAmplitude poleTerm
  rw [loop_sum, loop_sum, Finset.range_eq_Ico, Finset.sum_div]
  exact ⟨rfl, rfl⟩

end AmpGen.KMatrix
