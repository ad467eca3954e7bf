import Verif.KMatrix.Lemmas
namespace AmpGen.KMatrix

variable {K : Type} [Field K] (quot : K → K → K)

/-! ### The factorisation -/

/-- What the factorisation writes at a position. -/
def stepLU (p : Nat × Nat) (d : Data K) : K :=
  if p.2 ≤ p.1 then d p - ∑ k ∈ Finset.Ico 0 p.2, d (p.1, k) * d (k, p.2)
  else quot (d p - ∑ k ∈ Finset.Ico 0 p.1, d (p.1, k) * d (k, p.2)) (d (p.1, p.1))

theorem stepLU_low (a b : Nat) (d : Data K) (h : b ≤ a) :
    stepLU quot (a, b) d = d (a, b) - ∑ k ∈ Finset.Ico 0 b, d (a, k) * d (k, b) := if_pos h

theorem stepLU_up (a b : Nat) (d : Data K) (h : a < b) :
    stepLU quot (a, b) d = quot (d (a, b) - ∑ k ∈ Finset.Ico 0 a, d (a, k) * d (k, b)) (d (a, a)) := if_neg (not_le.2 h)

def posL (n i : Nat) : List (Nat × Nat) := (List.range' i (n - i)).map fun j => (j, i)
def posU (n i : Nat) : List (Nat × Nat) := (List.range' (i + 1) (n - (i + 1))).map fun j => (i, j)
def posLU (n : Nat) : List (Nat × Nat) := posU n 0 ++ (List.range' 1 (n - 1)).flatMap fun i => posL n i ++ posU n i

theorem mem_posL {n i : Nat} {p : Nat × Nat} : p ∈ posL n i ↔ p.2 = i ∧ i ≤ p.1 ∧ p.1 < n := by
  unfold posL
  simp only [List.mem_map, mem_range'']
  constructor
  · rintro ⟨j, ⟨h1, h2⟩, rfl⟩; exact ⟨rfl, h1, h2⟩
  · rintro ⟨rfl, h1, h2⟩; exact ⟨p.1, ⟨h1, h2⟩, rfl⟩

theorem mem_posU {n i : Nat} {p : Nat × Nat} : p ∈ posU n i ↔ p.1 = i ∧ i < p.2 ∧ p.2 < n := by
  unfold posU
  simp only [List.mem_map, mem_range'']
  constructor
  · rintro ⟨j, ⟨h1, h2⟩, rfl⟩; exact ⟨rfl, h1, h2⟩
  · rintro ⟨rfl, h1, h2⟩; exact ⟨p.2, ⟨h1, h2⟩, rfl⟩

/-- The order of the factorisation. -/
def ordLU (p q : Nat × Nat) : Prop :=
  min p.1 p.2 < min q.1 q.2 ∨
    (min p.1 p.2 = min q.1 q.2 ∧
      ((p.2 ≤ p.1 ∧ q.1 < q.2) ∨ (p.2 ≤ p.1 ∧ q.2 ≤ q.1 ∧ p.1 < q.1) ∨ (p.1 < p.2 ∧ q.1 < q.2 ∧ p.2 < q.2)))

instance : DecidableRel ordLU := fun _ _ => by unfold ordLU; infer_instance

theorem ordLU_asymm (p q : Nat × Nat) : ordLU p q → ¬ ordLU q p := by
  unfold ordLU; omega

theorem posLU_pairwise (n : Nat) : (posLU n).Pairwise ordLU := by
  have hL : ∀ i, (posL n i).Pairwise ordLU := fun i => by
    apply pairwise_map; intro j k h1 h2 h3; unfold ordLU; simp only; omega
  have hU : ∀ i, (posU n i).Pairwise ordLU := fun i => by
    apply pairwise_map; intro j k h1 h2 h3; unfold ordLU; simp only; omega
  unfold posLU
  rw [List.pairwise_append]
  refine ⟨hU 0, ?_, ?_⟩
  · apply pairwise_flat
    · intro i _ _
      rw [List.pairwise_append]
      refine ⟨hL i, hU i, ?_⟩
      intro p hp q hq
      rw [mem_posL] at hp; rw [mem_posU] at hq
      unfold ordLU; omega
    · intro i j h1 h2 h3 p hp q hq
      rw [List.mem_append, mem_posL, mem_posU] at hp hq
      unfold ordLU; omega
  · intro p hp q hq
    rw [mem_posU] at hp
    rw [List.mem_flatMap] at hq
    obtain ⟨i, hi, hq⟩ := hq
    rw [mem_range''] at hi
    rw [List.mem_append, mem_posL, mem_posU] at hq
    unfold ordLU; omega

theorem mem_posLU {n : Nat} {p : Nat × Nat} : p ∈ posLU n ↔ p.1 < n ∧ p.2 < n ∧ 0 < p.2 := by
  unfold posLU
  rw [List.mem_append, List.mem_flatMap, mem_posU]
  constructor
  · rintro (h | ⟨i, hi, h⟩)
    · omega
    · rw [mem_range''] at hi; rw [List.mem_append, mem_posL, mem_posU] at h; omega
  · intro h
    by_cases h0 : p.1 = 0
    · left; omega
    · right
      refine ⟨min p.1 p.2, ?_, ?_⟩
      · rw [mem_range'']; omega
      · rw [List.mem_append, mem_posL, mem_posU]; omega

theorem columnL_run (n i : Nat) (d : Data K) : columnL apart n i d = run (stepLU quot) (posL n i) d := by
  unfold posL
  rw [← loop_run]
  apply loop_congr
  intro j h1 h2 d
  rw [stepLU_low quot j i d h1]
  unfold sumBelow
  rw [loop_sum]
  rfl

theorem rowU_run (n i : Nat) (d : Data K) : rowU apart quot n i d = run (stepLU quot) (posU n i) d := by
  unfold posU
  rw [← loop_run]
  apply loop_congr
  intro j h1 h2 d
  rw [stepLU_up quot i j d (by omega)]
  unfold sumBelow
  rw [loop_sum]
  rfl

theorem rowZero_run (n : Nat) (d : Data K) : rowZero apart quot n d = run (stepLU quot) (posU n 0) d := by
  unfold posU
  rw [← loop_run]
  apply loop_congr
  intro j h1 h2 d
  rw [stepLU_up quot 0 j d (by omega)]
  simp [apart]

theorem factorise_run (n : Nat) (d : Data K) :
    factorise apart quot n (rowZero apart quot n d) = run (stepLU quot) (posLU n) d := by
  unfold posLU
  rw [run_append, ← rowZero_run, ← loop_flat]
  apply loop_congr
  intro i h1 h2 d
  rw [run_append, ← rowU_run, ← columnL_run quot]
  by_cases h : i = n - 1
  · simp only [if_pos h]
    have : n - (i + 1) = 0 := by omega
    simp [rowU, loop, this]
  · simp only [if_neg h]

/-- The elements of `L`. -/
theorem lu_low (n : Nat) (d : Data K) (a b : Nat) (ha : a < n) (hba : b ≤ a) :
    run (stepLU quot) (posLU n) d (a, b) =
      d (a, b) - ∑ k ∈ Finset.Ico 0 b, run (stepLU quot) (posLU n) d (a, k) * run (stepLU quot) (posLU n) d (k, b) := by
  by_cases hb : b = 0
  · subst hb
    rw [run_not_mem]
    · simp
    · rw [mem_posLU]; simp
  · have hm : (a, b) ∈ posLU n := by rw [mem_posLU]; simp only; omega
    rw [run_eq (stepLU quot) (posLU n) d ordLU (posLU_pairwise n) ordLU_asymm _ hm, stepLU_low quot a b _ hba]
    have h0 : ¬ ordLU (a, b) (a, b) := fun h => ordLU_asymm _ _ h h
    beta_reduce
    rw [if_neg h0]
    congr 1
    apply Finset.sum_congr rfl
    intro k hk
    rw [Finset.mem_Ico] at hk
    have h1 : ordLU (a, k) (a, b) := by unfold ordLU; simp only; omega
    have h2 : ordLU (k, b) (a, b) := by unfold ordLU; simp only; omega
    rw [if_pos h1, if_pos h2]

/-- The elements of `U`. -/
theorem lu_up (n : Nat) (d : Data K) (a b : Nat) (hb : b < n) (hab : a < b) :
    run (stepLU quot) (posLU n) d (a, b) =
      quot (d (a, b) - ∑ k ∈ Finset.Ico 0 a, run (stepLU quot) (posLU n) d (a, k) * run (stepLU quot) (posLU n) d (k, b))
        (run (stepLU quot) (posLU n) d (a, a)) := by
  have hm : (a, b) ∈ posLU n := by rw [mem_posLU]; simp only; omega
  rw [run_eq (stepLU quot) (posLU n) d ordLU (posLU_pairwise n) ordLU_asymm _ hm, stepLU_up quot a b _ hab]
  have h0 : ¬ ordLU (a, b) (a, b) := fun h => ordLU_asymm _ _ h h
  have ho : ordLU (a, a) (a, b) := by unfold ordLU; simp only; omega
  beta_reduce
  rw [if_neg h0, if_pos ho]
  congr 2
  apply Finset.sum_congr rfl
  intro k hk
  rw [Finset.mem_Ico] at hk
  have h1 : ordLU (a, k) (a, b) := by unfold ordLU; simp only; omega
  have h2 : ordLU (k, b) (a, b) := by unfold ordLU; simp only; omega
  rw [if_pos h1, if_pos h2]

/-! ### The inverse of `L` -/

def stepIL (p : Nat × Nat) (d : Data K) : K :=
  if p.1 = p.2 then quot 1 (d p)
  else quot (- ∑ k ∈ Finset.Ico p.2 p.1, d (p.1, k) * d (k, p.2)) (d (p.1, p.1))

def posIL (n : Nat) : List (Nat × Nat) := (List.range' 0 (n - 0)).flatMap fun i => posL n i

/-- Column by column. -/
def ordC (p q : Nat × Nat) : Prop := p.2 < q.2 ∨ (p.2 = q.2 ∧ p.1 < q.1)
instance : DecidableRel ordC := fun _ _ => by unfold ordC; infer_instance
theorem ordC_asymm (p q : Nat × Nat) : ordC p q → ¬ ordC q p := by unfold ordC; omega

/-- Row by row. -/
def ordR (p q : Nat × Nat) : Prop := p.1 < q.1 ∨ (p.1 = q.1 ∧ p.2 < q.2)
instance : DecidableRel ordR := fun _ _ => by unfold ordR; infer_instance
theorem ordR_asymm (p q : Nat × Nat) : ordR p q → ¬ ordR q p := by unfold ordR; omega

theorem posIL_pairwise (n : Nat) : (posIL n).Pairwise ordC := by
  apply pairwise_flat
  · intro i _ _
    apply pairwise_map; intro j k h1 h2 h3; right; exact ⟨rfl, h2⟩
  · intro i j h1 h2 h3 p hp q hq
    rw [mem_posL] at hp hq
    unfold ordC; omega

theorem mem_posIL {n : Nat} {p : Nat × Nat} : p ∈ posIL n ↔ p.1 < n ∧ p.2 ≤ p.1 := by
  unfold posIL
  rw [List.mem_flatMap]
  constructor
  · rintro ⟨i, hi, h⟩
    rw [mem_posL] at h; omega
  · intro h
    refine ⟨p.2, ?_, ?_⟩
    · rw [mem_range'']; omega
    · rw [mem_posL]; omega

theorem stepIL_diag (i : Nat) (d : Data K) : stepIL quot (i, i) d = quot 1 (d (i, i)) := if_pos rfl

theorem stepIL_low (j i : Nat) (d : Data K) (h : i < j) :
    stepIL quot (j, i) d = quot (- ∑ k ∈ Finset.Ico i j, d (j, k) * d (k, i)) (d (j, j)) := if_neg (by simp only; omega)

theorem invertL_run (n : Nat) (d : Data K) : invertL apart quot n d = run (stepIL quot) (posIL n) d := by
  unfold posIL
  rw [← loop_flat]
  apply loop_congr
  intro i h1 h2 d
  have e : posL n i = [(i, i)] ++ (List.range' (i + 1) (n - (i + 1))).map fun j => (j, i) := by
    unfold posL
    rw [show n - i = (n - (i + 1)) + 1 by omega, List.range'_succ]
    simp
  rw [e, run_append, ← loop_run]
  have e1 : run (stepIL quot) [(i, i)] d = put apart d (i, i) (quot 1 (d (apart (i, i)))) := by
    simp [run, stepIL, apart]
  rw [e1]
  apply loop_congr
  intro j h3 h4 d
  rw [stepIL_low quot j i d (by omega), loop_sub]
  rfl

theorem il_diag (n : Nat) (d : Data K) (i : Nat) (hi : i < n) :
    run (stepIL quot) (posIL n) d (i, i) = quot 1 (d (i, i)) := by
  have hm : (i, i) ∈ posIL n := by rw [mem_posIL]; simp only; omega
  rw [run_eq (stepIL quot) (posIL n) d ordC (posIL_pairwise n) ordC_asymm _ hm, stepIL_diag]
  have h0 : ¬ ordC (i, i) (i, i) := fun h => ordC_asymm _ _ h h
  beta_reduce
  rw [if_neg h0]

theorem il_low (n : Nat) (d : Data K) (j i : Nat) (hj : j < n) (hij : i < j) :
    run (stepIL quot) (posIL n) d (j, i) =
      quot (- ∑ k ∈ Finset.Ico i j, d (j, k) * run (stepIL quot) (posIL n) d (k, i)) (d (j, j)) := by
  have hm : (j, i) ∈ posIL n := by rw [mem_posIL]; simp only; omega
  rw [run_eq (stepIL quot) (posIL n) d ordC (posIL_pairwise n) ordC_asymm _ hm, stepIL_low quot j i _ hij]
  have h0 : ¬ ordC (j, j) (j, i) := by unfold ordC; simp only; omega
  beta_reduce
  rw [if_neg h0]
  congr 2
  apply Finset.sum_congr rfl
  intro k hk
  rw [Finset.mem_Ico] at hk
  have h1 : ¬ ordC (j, k) (j, i) := by unfold ordC; simp only; omega
  have h2 : ordC (k, i) (j, i) := Or.inr ⟨rfl, hk.2⟩
  rw [if_neg h1, if_pos h2]

theorem il_up (n : Nat) (d : Data K) (i j : Nat) (hij : i < j) : run (stepIL quot) (posIL n) d (i, j) = d (i, j) := by
  apply run_not_mem
  rw [mem_posIL]; simp only; omega

/-! ### The inverse of `U` -/

def stepIU (p : Nat × Nat) (d : Data K) : K :=
  - ∑ k ∈ Finset.Ico p.1 p.2, d (k, p.2) * (if p.1 = k then 1 else d (p.1, k))

def posIU (n : Nat) : List (Nat × Nat) := (List.range' 0 (n - 0)).flatMap fun i => posU n i

theorem posIU_pairwise (n : Nat) : (posIU n).Pairwise ordR := by
  apply pairwise_flat
  · intro i _ _
    apply pairwise_map; intro j k h1 h2 h3; right; exact ⟨rfl, h2⟩
  · intro i j h1 h2 h3 p hp q hq
    rw [mem_posU] at hp hq
    unfold ordR; omega

theorem mem_posIU {n : Nat} {p : Nat × Nat} : p ∈ posIU n ↔ p.2 < n ∧ p.1 < p.2 := by
  unfold posIU
  rw [List.mem_flatMap]
  constructor
  · rintro ⟨i, hi, h⟩
    rw [mem_posU] at h; omega
  · intro h
    refine ⟨p.1, ?_, ?_⟩
    · rw [mem_range'']; omega
    · rw [mem_posU]; omega

theorem stepIU_eq (i j : Nat) (d : Data K) :
    stepIU (i, j) d = - ∑ k ∈ Finset.Ico i j, d (k, j) * (if i = k then 1 else d (i, k)) := rfl

theorem invertU_run (n : Nat) (d : Data K) : invertU apart n d = run stepIU (posIU n) d := by
  unfold posIU
  rw [← loop_flat]
  apply loop_congr
  intro i h1 h2 d
  unfold posU
  rw [← loop_run]
  apply loop_congr
  intro j h3 h4 d
  rw [stepIU_eq, loop_sum]
  rfl

theorem iu_up (n : Nat) (d : Data K) (i j : Nat) (hj : j < n) (hij : i < j) :
    run stepIU (posIU n) d (i, j) =
      - ∑ k ∈ Finset.Ico i j, d (k, j) * (if i = k then 1 else run stepIU (posIU n) d (i, k)) := by
  have hm : (i, j) ∈ posIU n := by rw [mem_posIU]; simp only; omega
  rw [run_eq stepIU (posIU n) d ordR (posIU_pairwise n) ordR_asymm _ hm, stepIU_eq]
  beta_reduce
  congr 1
  apply Finset.sum_congr rfl
  intro k hk
  rw [Finset.mem_Ico] at hk
  have h1 : ¬ ordR (k, j) (i, j) := by unfold ordR; simp only; omega
  have h2 : ordR (i, k) (i, j) := Or.inr ⟨rfl, hk.2⟩
  rw [if_neg h1, if_pos h2]

theorem iu_low (n : Nat) (d : Data K) (i j : Nat) (hij : j ≤ i) : run stepIU (posIU n) d (i, j) = d (i, j) := by
  apply run_not_mem
  rw [mem_posIU]; simp only; omega

/-! ### The product -/

def stepM (n : Nat) (p : Nat × Nat) (d : Data K) : K :=
  ∑ k ∈ Finset.Ico (if p.2 > p.1 then p.2 else p.1) n, (if p.1 = k then 1 else d (p.1, k)) * d (k, p.2)

def posM (n : Nat) : List (Nat × Nat) := (List.range' 0 (n - 0)).flatMap fun i => (List.range' 0 (n - 0)).map fun j => (j, i)

theorem posM_pairwise (n : Nat) : (posM n).Pairwise ordC := by
  apply pairwise_flat
  · intro i _ _
    apply pairwise_map; intro j k h1 h2 h3; right; exact ⟨rfl, h2⟩
  · intro i j h1 h2 h3 p hp q hq
    simp only [List.mem_map, mem_range''] at hp hq
    obtain ⟨_, _, rfl⟩ := hp
    obtain ⟨_, _, rfl⟩ := hq
    unfold ordC; simp only; omega

theorem mem_posM {n : Nat} {p : Nat × Nat} : p ∈ posM n ↔ p.1 < n ∧ p.2 < n := by
  unfold posM
  simp only [List.mem_flatMap, List.mem_map, mem_range'']
  constructor
  · rintro ⟨i, hi, j, hj, rfl⟩; exact ⟨hj.2, hi.2⟩
  · intro h
    exact ⟨p.2, ⟨Nat.zero_le _, h.2⟩, p.1, ⟨Nat.zero_le _, h.1⟩, rfl⟩

theorem stepM_eq (n j i : Nat) (d : Data K) :
    stepM n (j, i) d = ∑ k ∈ Finset.Ico (if i > j then i else j) n, (if j = k then 1 else d (j, k)) * d (k, i) := rfl

theorem multiply_run (n : Nat) (d : Data K) : multiply apart n d = run (stepM n) (posM n) d := by
  unfold posM
  rw [← loop_flat]
  apply loop_congr
  intro i h1 h2 d
  rw [← loop_run]
  apply loop_congr
  intro j h3 h4 d
  rw [stepM_eq, loop_sum]
  rfl

theorem m_eq (n : Nat) (d : Data K) (j i : Nat) (hj : j < n) (hi : i < n) :
    run (stepM n) (posM n) d (j, i) = ∑ k ∈ Finset.Ico (max i j) n, (if j = k then 1 else d (j, k)) * d (k, i) := by
  have hm : (j, i) ∈ posM n := by rw [mem_posM]; exact ⟨hj, hi⟩
  rw [run_eq (stepM n) (posM n) d ordC (posM_pairwise n) ordC_asymm _ hm, stepM_eq]
  have e : (if i > j then i else j) = max i j := by split <;> omega
  beta_reduce
  rw [e]
  apply Finset.sum_congr rfl
  intro k hk
  rw [Finset.mem_Ico] at hk
  have h1 : ¬ ordC (k, i) (j, i) := by unfold ordC; simp only; omega
  have h2 : ¬ ordC (j, k) (j, i) := by unfold ordC; simp only; omega
  rw [if_neg h1, if_neg h2]

end AmpGen.KMatrix
