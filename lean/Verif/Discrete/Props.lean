import Verif.Discrete.Lemmas
import Mathlib.MeasureTheory.Measure.Lebesgue.Basic
/-
C17: discrete sampling is exact.
-/
namespace AmpGen.Discrete

open Classical MeasureTheory

theorem bucket_volume (N j : Nat) (b : Bucket) (k : Nat) :
    volume {u : ℝ | (j : ℝ) / N ≤ u ∧ u < ((j : ℝ) + 1) / N ∧ (if u < b.2.2 then b.1 else b.2.1) = k} =
      ENNReal.ofReal (share N j b k) := by
  obtain ⟨x, y, t⟩ := b
  have hNN : (0 : ℝ) ≤ 1 / N := by positivity
  have hae : (j : ℝ) / N ≤ ((j : ℝ) + 1) / N := by rw [add_div]; linarith
  unfold share
  simp only
  generalize (j : ℝ) / N = a at *
  generalize ((j : ℝ) + 1) / N = e at *
  by_cases hx : x = k
  · by_cases hy : y = k
    · have : {u : ℝ | a ≤ u ∧ u < e ∧ (if u < t then x else y) = k} = Set.Ico a e := by
        ext u; simp [hx, hy]
      rw [this, Real.volume_Ico, if_pos hx, if_pos hy]
      congr 1; ring
    · have : {u : ℝ | a ≤ u ∧ u < e ∧ (if u < t then x else y) = k} = Set.Ico a (min t e) := by
        ext u
        simp only [Set.mem_setOf_eq, Set.mem_Ico, lt_min_iff]
        constructor
        · rintro ⟨h1, h2, h3⟩
          split at h3
          · exact ⟨h1, ‹_›, h2⟩
          · exact absurd h3 hy
        · rintro ⟨h1, h2, h3⟩
          exact ⟨h1, h3, by rw [if_pos h2]; exact hx⟩
      rw [this, Real.volume_Ico, if_pos hx, if_neg hy, add_zero]
      rcases le_total a (min t e) with h | h
      · rw [max_eq_right h]
      · rw [max_eq_left h, sub_self, ENNReal.ofReal_of_nonpos (by linarith), ENNReal.ofReal_zero]
  · by_cases hy : y = k
    · have : {u : ℝ | a ≤ u ∧ u < e ∧ (if u < t then x else y) = k} = Set.Ico (max a t) e := by
        ext u
        simp only [Set.mem_setOf_eq, Set.mem_Ico, max_le_iff]
        constructor
        · rintro ⟨h1, h2, h3⟩
          split at h3
          · exact absurd h3 hx
          · exact ⟨⟨h1, not_lt.mp ‹_›⟩, h2⟩
        · rintro ⟨⟨h1, h2⟩, h3⟩
          exact ⟨h1, h3, by rw [if_neg (not_lt.mpr h2)]; exact hy⟩
      rw [this, Real.volume_Ico, if_neg hx, if_pos hy, zero_add]
      rcases le_total t e with h | h
      · rw [min_eq_left h]
      · rw [min_eq_right h, max_eq_right hae, sub_self, ENNReal.ofReal_of_nonpos, ENNReal.ofReal_zero]
        have := le_max_right a t
        linarith
    · have : {u : ℝ | a ≤ u ∧ u < e ∧ (if u < t then x else y) = k} = ∅ := by
        ext u
        simp only [Set.mem_setOf_eq, Set.mem_empty_iff_false, iff_false]
        rintro ⟨_, _, h3⟩
        split at h3
        · exact hx h3
        · exact hy h3
      rw [this, if_neg hx, if_neg hy]
      simp

theorem share_nonneg (N j : Nat) (b : Bucket) (k : Nat) : 0 ≤ share N j b k := by
  have hNN : (0 : ℝ) ≤ 1 / N := by positivity
  have hae : (j : ℝ) / N ≤ ((j : ℝ) + 1) / N := by rw [add_div]; linarith
  unfold share
  simp only
  have h1 : (j : ℝ) / N ≤ max ((j : ℝ) / N) (min b.2.2 (((j : ℝ) + 1) / N)) := le_max_left _ _
  have h2 : max ((j : ℝ) / N) (min b.2.2 (((j : ℝ) + 1) / N)) ≤ ((j : ℝ) + 1) / N := max_le hae (min_le_right _ _)
  apply add_nonneg
  · split <;> linarith
  · split <;> linarith

theorem probabilities_spec {weights : List ℝ} (h0 : ∀ w ∈ weights, 0 ≤ w) (h1 : 0 < weights.sum) :
    probabilities weights ≠ [] ∧ (∀ x ∈ probabilities weights, 0 ≤ x) ∧ (probabilities weights).sum = 1 ∧
    (probabilities weights).length = weights.length ∧
    ∀ k, (probabilities weights).getD k 0 = weights.getD k 0 / weights.sum := by
  have hs : weights.foldl (· + ·) 0 = weights.sum := by rw [List.sum_eq_foldl]
  unfold probabilities
  simp only [hs]
  refine ⟨?_, ?_, ?_, by simp, ?_⟩
  · intro h
    rw [List.map_eq_nil_iff] at h
    rw [h] at h1
    simp at h1
  · intro x hx
    obtain ⟨w, hw, rfl⟩ := List.mem_map.mp hx
    exact div_nonneg (h0 w hw) h1.le
  · have : ∀ (l : List ℝ) (c : ℝ), (l.map fun w => w / c).sum = l.sum / c := by
      intro l c
      induction l with
      | nil => simp
      | cons x l ih => simp [ih, add_div]
    rw [this, div_self h1.ne']
  · intro k
    simp only [List.getD_eq_getElem?_getD, List.getElem?_map]
    cases weights[k]? <;> simp

theorem sum_zipIdx (N : Nat) (bs : List Bucket) (k : Nat) :
    shares N bs k = ∑ j ∈ Finset.range bs.length, share N j (bs.getD j (0, 0, 0)) k := by
  induction bs using List.reverseRecOn with
  | nil => simp [shares]
  | append_singleton bs b ih =>
    rw [shares_snoc, ih, List.length_append, List.length_singleton, Finset.sum_range_succ]
    congr 1
    · apply Finset.sum_congr rfl
      intro j hj
      have hj' := Finset.mem_range.mp hj
      simp [List.getD_eq_getElem?_getD, List.getElem?_append_left hj']
    · simp [List.getD_eq_getElem?_getD]

/-- C17: for non-negative weights with a positive sum every uniform number in `[0,1)` yields an
outcome, and the set of those that yield outcome `k` has measure exactly the normalised
weight of `k`. -/
theorem discrete_sampling_exact (weights : List ℝ) (h0 : ∀ w ∈ weights, 0 ≤ w) (h1 : 0 < weights.sum) :
    (∀ u : ℝ, 0 ≤ u → u < 1 → ∃ k < weights.length, sample weights u = some k) ∧
    ∀ k, volume {u : ℝ | 0 ≤ u ∧ u < 1 ∧ sample weights u = some k} =
      ENNReal.ofReal (weights.getD k 0 / weights.sum) := by
  obtain ⟨p1, p2, p3, p4, p5⟩ := probabilities_spec h0 h1
  obtain ⟨b1, b2, b3⟩ := createBuckets_spec p1 p2 p3
  set bs := createBuckets (probabilities weights) with hbs
  have hN : 0 < bs.length := by rw [b1]; exact List.length_pos_iff.mpr p1
  have hN' : (0 : ℝ) < bs.length := Nat.cast_pos.mpr hN
  have hidx : ∀ u : ℝ, 0 ≤ u → u < 1 → ⌊(bs.length : ℝ) * u⌋₊ < bs.length := by
    intro u hu0 hu1
    rw [Nat.floor_lt (by positivity)]
    nlinarith
  have hsample : ∀ u : ℝ, ∀ j, j < bs.length → ⌊(bs.length : ℝ) * u⌋₊ = j → sample weights u =
      some (if u < (bs.getD j (0, 0, 0)).2.2 then (bs.getD j (0, 0, 0)).1 else (bs.getD j (0, 0, 0)).2.1) := by
    intro u j hj hf
    unfold sample
    simp only [← hbs, hf]
    simp [List.getD_eq_getElem?_getD, List.getElem?_eq_getElem hj]
  constructor
  · intro u hu0 hu1
    have hj := hidx u hu0 hu1
    refine ⟨_, ?_, hsample u _ hj rfl⟩
    have hm := b2 (bs.getD ⌊(bs.length : ℝ) * u⌋₊ (0, 0, 0)) (by
      rw [List.getD_eq_getElem?_getD, List.getElem?_eq_getElem hj]; exact List.getElem_mem hj)
    rw [p4] at hm
    split
    · exact hm.1
    · exact hm.2
  · intro k
    have hset : {u : ℝ | 0 ≤ u ∧ u < 1 ∧ sample weights u = some k} =
        ⋃ j ∈ Finset.range bs.length, {u : ℝ | (j : ℝ) / bs.length ≤ u ∧ u < ((j : ℝ) + 1) / bs.length ∧
          (if u < (bs.getD j (0, 0, 0)).2.2 then (bs.getD j (0, 0, 0)).1 else (bs.getD j (0, 0, 0)).2.1) = k} := by
      ext u
      simp only [Set.mem_setOf_eq, Set.mem_iUnion, Finset.mem_range, exists_prop]
      constructor
      · rintro ⟨hu0, hu1, hs⟩
        have hj := hidx u hu0 hu1
        refine ⟨_, hj, ?_, ?_, ?_⟩
        · rw [div_le_iff₀ hN', mul_comm]; exact Nat.floor_le (by positivity)
        · rw [lt_div_iff₀ hN', mul_comm]; exact Nat.lt_floor_add_one _
        · have := hsample u _ hj rfl
          rw [hs] at this
          exact (Option.some.inj this).symm
      · rintro ⟨j, hj, ha, he, hp⟩
        rw [div_le_iff₀ hN', mul_comm] at ha
        rw [lt_div_iff₀ hN', mul_comm] at he
        have hu0 : 0 ≤ u := by
          have : (0 : ℝ) ≤ (bs.length : ℝ) * u := le_trans (Nat.cast_nonneg j) ha
          exact nonneg_of_mul_nonneg_right this hN'
        have hu1 : u < 1 := by
          have : (j : ℝ) + 1 ≤ bs.length := by exact_mod_cast hj
          nlinarith
        refine ⟨hu0, hu1, ?_⟩
        rw [hsample u j hj ((Nat.floor_eq_iff (by positivity)).mpr ⟨ha, he⟩), hp]
    rw [hset, measure_biUnion_finset]
    · simp only [bucket_volume]
      rw [← ENNReal.ofReal_sum_of_nonneg (fun j _ => share_nonneg _ _ _ _), ← sum_zipIdx]
      have := b3 k
      rw [← b1] at this
      rw [this, p5 k]
    · intro i _ j _ hij
      rw [Function.onFun, Set.disjoint_left]
      rintro u ⟨hi1, hi2, _⟩ ⟨hj1, hj2, _⟩
      rw [div_le_iff₀ hN'] at hi1 hj1
      rw [lt_div_iff₀ hN'] at hi2 hj2
      rcases Nat.lt_or_gt_of_ne hij with h | h
      · have : (i : ℝ) + 1 ≤ j := by exact_mod_cast h
        linarith
      · have : (j : ℝ) + 1 ≤ i := by exact_mod_cast h
        linarith
    · intro j _
      have hm1 : MeasurableSet {u : ℝ | (j : ℝ) / bs.length ≤ u} := measurableSet_Ici
      have hm2 : MeasurableSet {u : ℝ | u < ((j : ℝ) + 1) / bs.length} := measurableSet_Iio
      have hm3 : MeasurableSet {u : ℝ | (if u < (bs.getD j (0, 0, 0)).2.2 then (bs.getD j (0, 0, 0)).1
          else (bs.getD j (0, 0, 0)).2.1) = k} := by
        have hmf : Measurable fun u : ℝ => (if u < (bs.getD j (0, 0, 0)).2.2 then (bs.getD j (0, 0, 0)).1
          else (bs.getD j (0, 0, 0)).2.1) := Measurable.ite measurableSet_Iio measurable_const measurable_const
        exact hmf (measurableSet_singleton k)
      exact hm1.inter (hm2.inter hm3)

/-- Weights with a zero among them meet the hypotheses. -/
example : (∀ w ∈ ([3, 0, 1, 4] : List ℝ), 0 ≤ w) ∧ 0 < ([3, 0, 1, 4] : List ℝ).sum := by
  constructor
  · intro w hw
    simp at hw
    rcases hw with rfl | rfl | rfl | rfl <;> norm_num
  · norm_num

/-- The code's remark that the last loop runs only through rounding: in exact arithmetic no
small piece is left over. -/
theorem discrete_no_small_left (weights : List ℝ) (h0 : ∀ w ∈ weights, 0 ≤ w) (h1 : 0 < weights.sum) :
    let st := (probabilities weights).foldl (splitStep weights.length) ([], [])
    (mix weights.length st.1 st.2 0 []).1 = [] := by
  obtain ⟨p1, p2, p3, p4, p5⟩ := probabilities_spec h0 h1
  have hN : 0 < (probabilities weights).length := List.length_pos_iff.mpr p1
  have hI := split_inv _ hN (probabilities weights) [] [] [] rfl (by simp) (by simp) (by simp) p2 (by simp [tot])
    (by intro k; simp [val]) (by simp) (by simp) (by simpa using p3)
  obtain ⟨i', hI', he⟩ := mix_inv _ _ 0 [] hI
  rw [p4] at hI' he
  exact (inv_end hI' he).1

end AmpGen.Discrete
