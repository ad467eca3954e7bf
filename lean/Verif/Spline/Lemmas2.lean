import Verif.Spline.Lemmas
import Mathlib.Algebra.BigOperators.Ring.Finset
import Mathlib.Algebra.BigOperators.Group.Finset.Sigma
import Mathlib.Algebra.BigOperators.Fin
/-
Curvatures, memory, and the pieces of a spline.
-/
namespace AmpGen.Spline
open Finset

/-- The difference that determines the curvature. -/
def second (y : Nat → ℝ) (j : Nat) : ℝ := y (j + 2) - 2 * y (j + 1) + y j

theorem curvature_inner (T : Nat → Nat → ℝ) (y : Nat → ℝ) (s : ℝ) (i m : Nat) (v : Nat → ℝ) (k : Nat) :
    (List.range m).foldl (fun (mvectors : Nat → ℝ) (j : Nat) =>
      let lj := y (j + 2) - 2 * y (j + 1) + y j
      fun k => if k = i + 1 then mvectors k + 6 * T i j * lj / (s * s) else mvectors k) v k =
    if k = i + 1 then v k + ∑ j ∈ range m, 6 * T i j * second y j / (s * s) else v k := by
  induction m with
  | zero => simp
  | succ m ih =>
    rw [List.range_succ, List.foldl_append, List.foldl_cons, List.foldl_nil]
    show (if k = i + 1 then _ + _ else _) = _
    rw [ih]
    by_cases h : k = i + 1
    · rw [if_pos h, if_pos h, if_pos h, Finset.sum_range_succ, ← add_assoc]; rfl
    · rw [if_neg h, if_neg h, if_neg h]

theorem curvature_outer (T : Nat → Nat → ℝ) (y : Nat → ℝ) (s : ℝ) (size m : Nat) (k : Nat) :
    (List.range m).foldl (fun (mvectors : Nat → ℝ) (i : Nat) =>
      (List.range size).foldl (fun (mvectors : Nat → ℝ) (j : Nat) =>
        let lj := y (j + 2) - 2 * y (j + 1) + y j
        fun k => if k = i + 1 then mvectors k + 6 * T i j * lj / (s * s) else mvectors k) mvectors) (fun _ => 0) k =
    if 0 < k ∧ k ≤ m then ∑ j ∈ range size, 6 * T (k - 1) j * second y j / (s * s) else 0 := by
  induction m with
  | zero => rw [if_neg (by omega)]; rfl
  | succ m ih =>
    rw [List.range_succ, List.foldl_append, List.foldl_cons, List.foldl_nil]
    rw [curvature_inner, ih]
    by_cases h : k = m + 1
    · subst h
      rw [if_pos rfl, if_neg (by omega), if_pos (by omega), zero_add]
      rfl
    · rw [if_neg h]
      exact if_congr (by omega) rfl rfl

theorem curvatures_eq (T : Nat → Nat → ℝ) (y : Nat → ℝ) (n : Nat) (min max : ℝ) (k : Nat) :
    curvatures T y n min max k = if 0 < k ∧ k ≤ n - 2 then
      ∑ j ∈ range (n - 2), 6 * T (k - 1) j * second y j / (((max - min) / ((n - 1 : Nat) : ℝ)) * ((max - min) / ((n - 1 : Nat) : ℝ))) else 0 :=
  curvature_outer _ _ _ _ _ _

/-- The curvatures satisfy the equations of a cubic spline. -/
theorem curvature_relation {T : Nat → Nat → ℝ} {n : Nat} (hT : Inverse (n - 2) (system (n - 2)) T) (y : Nat → ℝ) {min max h : ℝ}
    (hh : (max - min) / ((n - 1 : Nat) : ℝ) = h) (i : Nat) (hi : i + 2 < n) :
    curvatures T y n min max i + 4 * curvatures T y n min max (i + 1) + curvatures T y n min max (i + 2) = 6 * second y i / (h * h) := by
  have hv : curvatures T y n min max (n - 2 + 1) = 0 := by rw [curvatures_eq, if_neg (by omega)]
  have h0 : curvatures T y n min max 0 = 0 := by rw [curvatures_eq, if_neg (by omega)]
  have h1 := system_row (n - 2) i (by omega) (fun j => curvatures T y n min max (j + 1)) hv
  have h2 : ∑ j ∈ range (n - 2), system (n - 2) i j * curvatures T y n min max (j + 1) = 6 * second y i / (h * h) := by
    have h3 : ∀ j ∈ range (n - 2), system (n - 2) i j * curvatures T y n min max (j + 1) =
        ∑ k ∈ range (n - 2), (system (n - 2) i j * T j k) * (6 * second y k / (h * h)) := by
      intro j hj
      rw [curvatures_eq, if_pos ⟨by omega, by have := Finset.mem_range.mp hj; omega⟩, Finset.mul_sum, hh]
      refine Finset.sum_congr rfl fun k _ => ?_
      rw [show j + 1 - 1 = j from rfl]
      ring
    rw [Finset.sum_congr rfl h3, Finset.sum_comm]
    have h4 : ∀ k ∈ range (n - 2), ∑ j ∈ range (n - 2), (system (n - 2) i j * T j k) * (6 * second y k / (h * h)) =
        if i = k then 6 * second y k / (h * h) else 0 := by
      intro k hk
      rw [← Finset.sum_mul, hT i k (by omega) (Finset.mem_range.mp hk), ite_mul, one_mul, zero_mul]
    rw [Finset.sum_congr rfl h4, Finset.sum_ite_eq, if_pos (Finset.mem_range.mpr (by omega))]
  rw [h2] at h1
  rw [h1]
  cases i with
  | zero => rw [if_pos rfl, h0]; ring
  | succ i => rw [if_neg (by omega), show i + 1 - 1 + 1 = i + 1 by omega]; ring

/-! ### Memory -/

theorem transfer_fold (mem : Memory) (y m : Nat → ℝ) (address n k : Nat) (hk : k ≤ n) (a : Nat) :
    (List.range k).foldl (fun (mem : Memory) (i : Nat) => (mem.set (y i) (address + i)).set (m i) (address + n + i)) mem a =
    if address ≤ a ∧ a < address + k then y (a - address) else if address + n ≤ a ∧ a < address + n + k then m (a - (address + n)) else mem a := by
  induction k with
  | zero => rw [if_neg (by omega), if_neg (by omega)]; rfl
  | succ k ih =>
    rw [List.range_succ, List.foldl_append, List.foldl_cons, List.foldl_nil]
    generalize hM : (List.range k).foldl _ _ = M at ih ⊢
    have ih := ih (by omega)
    unfold Memory.set
    by_cases h1 : a = address + n + k
    · rw [if_pos h1, if_neg (by omega), if_pos (by omega)]
      congr 1; omega
    · rw [if_neg h1]
      by_cases h2 : a = address + k
      · rw [if_pos h2, if_pos (by omega)]
        congr 1; omega
      · rw [if_neg h2, ih]
        refine if_congr (by omega) rfl (if_congr (by omega) rfl rfl)

theorem transfer_value (mem : Memory) (T : Nat → Nat → ℝ) (y : Nat → ℝ) (address n : Nat) (min max : ℝ) (i : Nat) (hi : i < n) :
    transfer mem T y address n min max (address + i) = y i := by
  unfold transfer
  rw [transfer_fold mem y _ address n n (le_refl _), if_pos (by omega)]
  congr 1; omega

theorem transfer_curvature (mem : Memory) (T : Nat → Nat → ℝ) (y : Nat → ℝ) (address n : Nat) (min max : ℝ) (i : Nat) (hi : i < n) :
    transfer mem T y address n min max (address + (n + i)) = curvatures T y n min max i := by
  unfold transfer
  rw [transfer_fold mem y _ address n n (le_refl _), if_neg (by omega), if_pos (by omega)]
  congr 1; omega

/-! ### The pieces -/

/-- The cubic between knots `i` and `i + 1`. -/
noncomputable def piece (y m : Nat → ℝ) (a h : ℝ) (i : Nat) (x : ℝ) : ℝ :=
  let dx := x - (a + i * h)
  y i + ((y (i + 1) - y i) / h - (m (i + 1) + 2 * m i) * h / 6) * dx + m i * dx * dx / 2 + dx * dx * dx * (m (i + 1) - m i) / (6 * h)

/-- Its derivative. -/
noncomputable def piece' (y m : Nat → ℝ) (a h : ℝ) (i : Nat) (x : ℝ) : ℝ :=
  let dx := x - (a + i * h)
  ((y (i + 1) - y i) / h - (m (i + 1) + 2 * m i) * h / 6) + m i * dx + dx * dx * (m (i + 1) - m i) / (2 * h)

/-- Its second derivative. -/
noncomputable def piece'' (m : Nat → ℝ) (a h : ℝ) (i : Nat) (x : ℝ) : ℝ :=
  let dx := x - (a + i * h)
  m i + dx * (m (i + 1) - m i) / h

theorem piece_deriv (y m : Nat → ℝ) (a h : ℝ) (i : Nat) (x : ℝ) : HasDerivAt (piece y m a h i) (piece' y m a h i x) x := by
  have h1 : HasDerivAt (fun x : ℝ => x - (a + i * h)) 1 x := (hasDerivAt_id x).sub_const _
  have h2 := h1.mul h1
  have h3 := h2.mul h1
  have h4 := (((h1.const_mul ((y (i + 1) - y i) / h - (m (i + 1) + 2 * m i) * h / 6)).const_add (y i)).add (h2.const_mul (m i / 2))).add
    (h3.const_mul ((m (i + 1) - m i) / (6 * h)))
  refine (h4.congr_deriv ?_).congr_of_eventuallyEq (Filter.Eventually.of_forall fun z => ?_)
  · simp only [piece', Pi.mul_apply]
    by_cases hh : h = 0
    · subst hh; simp; ring
    · field_simp; ring
  · simp only [piece, Pi.mul_apply, Pi.add_apply]
    ring

theorem piece'_deriv (y m : Nat → ℝ) (a h : ℝ) (i : Nat) (x : ℝ) : HasDerivAt (piece' y m a h i) (piece'' m a h i x) x := by
  have h1 : HasDerivAt (fun x : ℝ => x - (a + i * h)) 1 x := (hasDerivAt_id x).sub_const _
  have h2 := h1.mul h1
  have h4 := ((h1.const_mul (m i)).const_add ((y (i + 1) - y i) / h - (m (i + 1) + 2 * m i) * h / 6)).add (h2.const_mul ((m (i + 1) - m i) / (2 * h)))
  refine (h4.congr_deriv ?_).congr_of_eventuallyEq (Filter.Eventually.of_forall fun z => ?_)
  · simp only [piece'']
    by_cases hh : h = 0
    · subst hh; simp
    · field_simp; ring
  · simp only [piece', Pi.mul_apply, Pi.add_apply]
    ring

theorem piece''_continuous (m : Nat → ℝ) (a h : ℝ) (i : Nat) : Continuous (piece'' m a h i) := by
  unfold piece''
  fun_prop

theorem piece_match (y m : Nat → ℝ) {a h : ℝ} (hh : 0 < h) (i : Nat) :
    piece y m a h i (a + (i + 1) * h) = piece y m a h (i + 1) (a + (i + 1) * h) := by
  simp only [piece]
  push_cast
  rw [show a + (i + 1) * h - (a + i * h) = h by ring, show a + ((i : ℝ) + 1) * h - (a + (i + 1) * h) = 0 by ring]
  field_simp
  ring

theorem piece'_match (y m : Nat → ℝ) {a h : ℝ} (hh : 0 < h) (i : Nat) (hm : m i + 4 * m (i + 1) + m (i + 2) = 6 * second y i / (h * h)) :
    piece' y m a h i (a + (i + 1) * h) = piece' y m a h (i + 1) (a + (i + 1) * h) := by
  simp only [piece']
  push_cast
  rw [show a + (i + 1) * h - (a + i * h) = h by ring, show a + ((i : ℝ) + 1) * h - (a + (i + 1) * h) = 0 by ring]
  rw [eq_div_iff (by positivity)] at hm
  unfold second at hm
  field_simp
  rw [show i + 1 + 1 = i + 2 from rfl]
  linear_combination 2 * hm

theorem piece''_match (m : Nat → ℝ) {a h : ℝ} (hh : 0 < h) (i : Nat) :
    piece'' m a h i (a + (i + 1) * h) = piece'' m a h (i + 1) (a + (i + 1) * h) := by
  simp only [piece'']
  push_cast
  rw [show a + (i + 1) * h - (a + i * h) = h by ring, show a + ((i : ℝ) + 1) * h - (a + (i + 1) * h) = 0 by ring]
  field_simp
  ring

/-! ### The value of a spline -/

theorem element_eq (mem : Memory) (address size k : Nat) (hk : k < size) {a : ℝ} (h1 : (k : ℝ) ≤ a) (h2 : a < k + 1) :
    element mem address size a = mem (address + k) := by
  unfold element
  have h0 : (0 : ℝ) ≤ a := le_trans (Nat.cast_nonneg k) h1
  have h3 : a < size := lt_of_lt_of_le h2 (by exact_mod_cast hk)
  rw [if_pos ⟨h0, h3⟩, (Nat.floor_eq_iff h0).mpr ⟨h1, h2⟩]

theorem eval_inside (mem : Memory) (T : Nat → Nat → ℝ) (y : Nat → ℝ) (address n : Nat) (hn : 2 ≤ n) {min max h x : ℝ}
    (hh : (max - min) / ((n : ℝ) - 1) = h) (hpos : 0 < h) (hx : min < x) (hx' : x < max) :
    eval (transfer mem T y address n min max) address n min max x = glue (piece y (curvatures T y n min max) min h) min h x := by
  have hN : max = min + ((n - 1 : Nat) : ℝ) * h := by
    rw [← hh, Nat.cast_sub (by omega), Nat.cast_one]
    have : (n : ℝ) - 1 ≠ 0 := by
      have : (2 : ℝ) ≤ n := by exact_mod_cast hn
      intro h; linarith
    field_simp
    ring
  have h0 : 0 ≤ (x - min) / h := div_nonneg (by linarith) hpos.le
  obtain ⟨i, hi⟩ : ∃ i, ⌊(x - min) / h⌋₊ = i := ⟨_, rfl⟩
  obtain ⟨h1, h2⟩ := (Nat.floor_eq_iff h0).mp hi
  have hin : i + 1 < n := by
    have : (i : ℝ) < ((n - 1 : Nat) : ℝ) := by
      refine lt_of_le_of_lt h1 ?_
      rw [div_lt_iff₀ hpos]; linarith
    have := Nat.cast_lt.mp this
    omega
  unfold eval glue
  simp only []
  rw [if_pos ⟨hx, hx'⟩, hh, hi]
  have hd : fmod (x - min) h = x - (min + i * h) := by
    unfold fmod
    rw [if_pos h0]
    have : (⌊(x - min) / h⌋ : ℝ) = (i : ℝ) := by
      rw [← hi]
      exact (natCast_floor_eq_intCast_floor h0).symm
    rw [this]; ring
  rw [hd]
  rw [element_eq _ _ _ i (by omega) h1 h2, element_eq _ _ _ (i + 1) (by omega) (by push_cast; linarith) (by push_cast; linarith),
    element_eq _ _ _ (n + (i + 1)) (by omega) (by push_cast; linarith) (by push_cast; linarith),
    element_eq _ _ _ (n + i) (by omega) (by push_cast; linarith) (by push_cast; linarith)]
  rw [transfer_value _ _ _ _ _ _ _ i (by omega), transfer_value _ _ _ _ _ _ _ (i + 1) hin, transfer_curvature _ _ _ _ _ _ _ i (by omega),
    transfer_curvature _ _ _ _ _ _ _ (i + 1) hin]
  rfl

theorem eval_outside (mem : Memory) (T : Nat → Nat → ℝ) (y : Nat → ℝ) (address n : Nat) (hn : 2 ≤ n) {min max x : ℝ} (hx : ¬(min < x ∧ x < max)) :
    eval (transfer mem T y address n min max) address n min max x = y (n - 1) := by
  unfold eval
  simp only []
  rw [if_neg hx, element_eq _ _ _ (n - 1) (by omega) (le_refl _) (by linarith), transfer_value _ _ _ _ _ _ _ (n - 1) (by omega)]

/-! ### The system can be solved -/

theorem system_invertible (size : Nat) : ∃ T, Inverse size (system size) T := by
  let A : Matrix (Fin size) (Fin size) ℝ := fun i j => system size i j
  have hdet : A.det ≠ 0 := by
    apply det_ne_zero_of_sum_row_lt_diag
    intro k
    have hk : A k k = 4 := by show system size k k = 4; rw [system_entry size k k k.2 k.2]; norm_num
    have h1 : ∑ j ∈ Finset.univ.erase k, ‖A k j‖ ≤ ∑ j : Fin size, ((if (j : Nat) = k + 1 then (1 : ℝ) else 0) + if (k : Nat) = j + 1 then 1 else 0) := by
      refine le_trans (Finset.sum_le_sum fun j hj => ?_) (Finset.sum_le_sum_of_subset_of_nonneg (Finset.erase_subset _ _) fun j _ _ => ?_)
      · have hne : ¬((k : Nat) = j) := fun h => (Finset.mem_erase.mp hj).1 (Fin.ext h.symm)
        show ‖system size k j‖ ≤ _
        rw [system_entry size k j k.2 j.2, if_neg hne, zero_add, Real.norm_of_nonneg (by positivity)]
      · positivity
    have h2 : ∑ j : Fin size, ((if (j : Nat) = k + 1 then (1 : ℝ) else 0) + if (k : Nat) = j + 1 then 1 else 0) ≤ 1 + 1 := by
      rw [Finset.sum_add_distrib]
      have h3 : ∀ p : Nat → Prop, [DecidablePred p] → (∀ i j, p i → p j → i = j) → ∑ j : Fin size, (if p j then (1 : ℝ) else 0) ≤ 1 := by
        intro p _ hp
        rw [Finset.sum_ite, Finset.sum_const, Finset.sum_const_zero, add_zero, nsmul_eq_mul, mul_one]
        have : (Finset.univ.filter fun j : Fin size => p j).card ≤ 1 := by
          rw [Finset.card_le_one]
          intro a ha b hb
          exact Fin.ext (hp _ _ (Finset.mem_filter.mp ha).2 (Finset.mem_filter.mp hb).2)
        exact_mod_cast this
      exact add_le_add (h3 (fun j => j = k + 1) fun i j hi hj => by omega) (h3 (fun j => (k : Nat) = j + 1) fun i j hi hj => by omega)
    have h3 : ‖A k k‖ = 4 := by rw [hk]; norm_num
    rw [h3]
    linarith
  have hinv := Matrix.mul_nonsing_inv A (isUnit_iff_ne_zero.mpr hdet)
  refine ⟨fun i j => if h : i < size ∧ j < size then A⁻¹ ⟨i, h.1⟩ ⟨j, h.2⟩ else 0, fun i k hi hk => ?_⟩
  have := congrFun (congrFun hinv ⟨i, hi⟩) ⟨k, hk⟩
  rw [Matrix.mul_apply, Matrix.one_apply] at this
  rw [Finset.sum_range]
  simp only [Fin.is_lt, hk, and_self, dite_true, Fin.eta]
  rw [show (if i = k then (1 : ℝ) else 0) = if (⟨i, hi⟩ : Fin size) = ⟨k, hk⟩ then 1 else 0 from if_congr (by rw [Fin.mk.injEq]) rfl rfl]
  rw [← this]

end AmpGen.Spline
