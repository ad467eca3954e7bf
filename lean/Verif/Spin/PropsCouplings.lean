import Verif.Spin.Ortho3
import Verif.Spin.PropsOrtho
import Verif.Spin.Props
/-
C105 and C106: the couplings of helicities that are used for an orbital angular momentum `L` and a total spin `S` of the decay products.
-/
namespace AmpGen.Spin
open Finset

/-- C105.  Exchanging the total spin with the spin of the first particle changes a coefficient by the square root of the numbers of states and by a sign. -/
theorem cg_crossing (j1 m1 j2 m2 J M : ℝ) (s : ℤ) (n n' : Nat) (hs : J - j1 - m2 = s) (hn : j1 + j2 - J = n) (hn' : J + j2 - j1 = n') (h1 : 0 ≤ j1) (hJ : 0 ≤ J) :
    √(2 * j1 + 1) * CG j1 m1 j2 m2 J M = (-1) ^ s * (√(2 * J + 1) * CG J M j2 (-m2) j1 m1) := by
  by_cases hM : m1 + m2 = M
  · subst hM
    exact cg_crossing' j1 m1 j2 m2 J s hs n n' hn hn' h1 hJ
  · have e1 : CG j1 m1 j2 m2 J M = 0 := by unfold CG; exact if_pos hM
    have e2 : CG J M j2 (-m2) j1 m1 = 0 := by unfold CG; exact if_pos (fun h => hM (by linarith))
    rw [e1, e2]; ring

/-- Spins 1 and 1/2, total spin 3/2. -/
example : (3 / 2 : ℝ) - 1 - 1 / 2 = (0 : ℤ) ∧ (1 : ℝ) + 1 / 2 - 3 / 2 = (0 : Nat) ∧ (3 / 2 : ℝ) + 1 / 2 - 1 = (1 : Nat) := by norm_num

open Classical in
/-- The coupling of two helicities in a list. -/
noncomputable def coupling (l : List LS) (m1 m2 : ℝ) : ℝ := (l.map fun f => if f.m1 = m1 ∧ f.m2 = m2 then f.factor else 0).sum

theorem list_sum_range (n : Nat) (f : Nat → ℝ) : ((List.range n).map f).sum = ∑ i ∈ range n, f i := by
  induction n with
  | zero => simp
  | succ n ih => rw [List.range_succ, List.map_append, List.sum_append, ih, sum_range_succ]; simp

theorem coupling_flatMap (n : Nat) (f : Nat → List LS) (m1 m2 : ℝ) : coupling ((List.range n).flatMap f) m1 m2 = ∑ i ∈ range n, coupling (f i) m1 m2 := by
  unfold coupling
  rw [← list_sum_range, List.map_flatMap]
  generalize List.range n = l
  induction l with
  | nil => simp
  | cons x l ih => rw [List.flatMap_cons, List.sum_append, ih, List.map_cons, List.sum_cons]

theorem coupling_eq (J L S : ℝ) (A B a b : Nat) (ha : a ≤ A) (hb : b ≤ B) :
    coupling (recouplingConstants J L S (A / 2) (B / 2)) (a - A / 2) (b - B / 2) = (recoupling J L S (A / 2) (B / 2) (a - A / 2) (b - B / 2)).factor := by
  unfold recouplingConstants
  rw [coupling_flatMap, show (2 : ℝ) * (A / 2) = (A : Nat) by ring, show (2 : ℝ) * (B / 2) = (B : Nat) by ring, passes_nat, passes_nat]
  have hin : ∀ i k : Nat, coupling (if (recoupling J L S (A / 2) (B / 2) (-((A : ℝ) / 2) + i) (-((B : ℝ) / 2) + k)).factor ≠ 0 then
      [recoupling J L S (A / 2) (B / 2) (-((A : ℝ) / 2) + i) (-((B : ℝ) / 2) + k)] else []) (a - A / 2) (b - B / 2) =
      if i = a ∧ k = b then (recoupling J L S (A / 2) (B / 2) (a - A / 2) (b - B / 2)).factor else 0 := by
    intro i k
    have hm : ((-((A : ℝ) / 2) + i = a - A / 2) ∧ (-((B : ℝ) / 2) + k = b - B / 2)) ↔ (i = a ∧ k = b) := by
      constructor
      · rintro ⟨h1, h2⟩
        constructor
        · have : (i : ℝ) = a := by linarith
          exact_mod_cast this
        · have : (k : ℝ) = b := by linarith
          exact_mod_cast this
      · rintro ⟨rfl, rfl⟩; constructor <;> ring
    by_cases h : i = a ∧ k = b
    · rw [if_pos h]
      obtain ⟨e1, e2⟩ := hm.2 h
      rw [e1, e2]
      unfold coupling
      by_cases h0 : (recoupling J L S (A / 2) (B / 2) (a - A / 2) (b - B / 2)).factor = 0
      · rw [if_neg (by simpa using h0)]; simp [h0]
      · rw [if_pos h0]
        have : (recoupling J L S (A / 2) (B / 2) ((a : ℝ) - A / 2) (b - B / 2)).m1 = (a : ℝ) - A / 2 ∧
            (recoupling J L S (A / 2) (B / 2) ((a : ℝ) - A / 2) (b - B / 2)).m2 = (b : ℝ) - B / 2 := ⟨rfl, rfl⟩
        simp [this]
    · rw [if_neg h]
      unfold coupling
      have hn : ¬ ((recoupling J L S (A / 2) (B / 2) (-((A : ℝ) / 2) + i) (-((B : ℝ) / 2) + k)).m1 = a - A / 2 ∧
          (recoupling J L S (A / 2) (B / 2) (-((A : ℝ) / 2) + i) (-((B : ℝ) / 2) + k)).m2 = b - B / 2) := fun hh => h (hm.1 hh)
      split
      · rw [List.map_cons, List.map_nil, if_neg hn]; simp
      · simp
  have : ∀ i ∈ range (A + 1), coupling ((List.range (B + 1)).flatMap fun (k : Nat) =>
      if (recoupling J L S (A / 2) (B / 2) (-((A : ℝ) / 2) + i) (-((B : ℝ) / 2) + k)).factor ≠ 0 then
      [recoupling J L S (A / 2) (B / 2) (-((A : ℝ) / 2) + i) (-((B : ℝ) / 2) + k)] else []) (a - A / 2) (b - B / 2) =
      if i = a then (recoupling J L S (A / 2) (B / 2) (a - A / 2) (b - B / 2)).factor else 0 := by
    intro i _
    rw [coupling_flatMap, sum_congr rfl fun k _ => hin i k]
    by_cases h : i = a
    · simp only [h, true_and, if_true]
      rw [sum_ite_eq' (range (B + 1)) b, if_pos (by simp; omega)]
    · simp [h]
  refine Eq.trans (sum_congr rfl this) ?_
  rw [sum_ite_eq' (range (A + 1)) a, if_pos (by simp; omega)]

theorem cg_zero {j1 m1 j2 m2 J M : ℝ} (h : ¬ (m1 + m2 = M ∧ |m1| ≤ j1 ∧ |M| ≤ J)) : CG j1 m1 j2 m2 J M = 0 := by
  by_contra hn
  obtain ⟨k1, k2, _, k4, _⟩ := cg_selection_rules j1 m1 j2 m2 J M hn
  exact h ⟨k1, k2, k4⟩

theorem couplings_inner (A B n n' c : Nat) (h : n ≤ min A B) (h' : n' ≤ min A B) (hc : c ≤ A + B) :
    ∑ a ∈ range (A + 1), ∑ b ∈ range (B + 1),
      CG (A / 2) (a - A / 2) (B / 2) (b - B / 2) ((A + B) / 2 - n) (c - (A + B) / 2) *
      CG (A / 2) (a - A / 2) (B / 2) (b - B / 2) ((A + B) / 2 - n') (c - (A + B) / 2) = if n = n' ∧ n ≤ c ∧ c + n ≤ A + B then 1 else 0 := by
  have hz : ∀ m : Nat, ¬ (m ≤ c ∧ c + m ≤ A + B) → ∀ a b : Nat, CG (A / 2) (a - A / 2) (B / 2) (b - B / 2) ((A + B) / 2 - m) ((c : ℝ) - (A + B) / 2) = 0 := by
    intro m hm a b
    apply cg_zero
    rintro ⟨_, _, h3⟩
    rw [abs_le] at h3
    apply hm
    constructor
    · have : (m : ℝ) ≤ c := by linarith
      exact_mod_cast this
    · have : (c : ℝ) + m ≤ A + B := by linarith
      exact_mod_cast this
  by_cases h1 : n ≤ c ∧ c + n ≤ A + B
  · by_cases h2 : n' ≤ c ∧ c + n' ≤ A + B
    · have := cg_orthonormal A B n n' (c - n) (c - n') h h' (by omega) (by omega)
      rw [Nat.cast_sub h1.1, Nat.cast_sub h2.1, show (c : ℝ) - n - (((A : ℝ) + B) / 2 - n) = c - (A + B) / 2 by ring,
        show (c : ℝ) - n' - (((A : ℝ) + B) / 2 - n') = c - (A + B) / 2 by ring] at this
      rw [this]
      by_cases hnn : n = n'
      · subst hnn; simp [h1]
      · simp [hnn]
    · rw [if_neg (by rintro ⟨rfl, hh⟩; exact h2 hh)]
      refine sum_eq_zero fun a _ => sum_eq_zero fun b _ => ?_
      rw [hz n' h2, mul_zero]
  · rw [if_neg (fun hh => h1 hh.2)]
    refine sum_eq_zero fun a _ => sum_eq_zero fun b _ => ?_
    rw [hz n h1, zero_mul]

/-- The sum over the projections of the first particle has one term. -/
theorem collapse (T σ b n n' : Nat) (hp : 2 ∣ T + σ) (hb : b ≤ σ) :
    ∑ a ∈ range (T + 1), CG (T / 2) (a - T / 2) (σ / 2) (b - σ / 2) n 0 * CG (T / 2) (a - T / 2) (σ / 2) (b - σ / 2) n' 0 =
      CG (T / 2) (-(b - σ / 2)) (σ / 2) (b - σ / 2) n 0 * CG (T / 2) (-(b - σ / 2)) (σ / 2) (b - σ / 2) n' 0 := by
  by_cases hr : 2 * b ≤ T + σ ∧ σ ≤ 2 * b + T
  · obtain ⟨a, ha⟩ : ∃ a : Nat, 2 * a + 2 * b = T + σ := ⟨(T + σ) / 2 - b, by omega⟩
    have har : (a : ℝ) - T / 2 = -(b - σ / 2) := by
      have : (2 : ℝ) * a + 2 * b = T + σ := by exact_mod_cast ha
      linarith
    rw [sum_eq_single a, har]
    · intro k _ hk
      have : CG (T / 2) ((k : ℝ) - T / 2) (σ / 2) (b - σ / 2) n 0 = 0 := by
        apply cg_zero
        rintro ⟨h1, _⟩
        apply hk
        have : (k : ℝ) = a := by linarith
        exact_mod_cast this
      rw [this, zero_mul]
    · intro hn; simp at hn; omega
  · have h0 : ∀ m : ℝ, CG (T / 2) (-((b : ℝ) - σ / 2)) (σ / 2) (b - σ / 2) m 0 = 0 := by
      intro m
      apply cg_zero
      rintro ⟨_, h2, _⟩
      rw [abs_le] at h2
      apply hr
      constructor
      · have : (2 : ℝ) * b ≤ T + σ := by linarith
        exact_mod_cast this
      · have : (σ : ℝ) ≤ 2 * b + T := by linarith
        exact_mod_cast this
    rw [h0, zero_mul]
    refine sum_eq_zero fun a ha => ?_
    have : CG (T / 2) ((a : ℝ) - T / 2) (σ / 2) (b - σ / 2) n 0 = 0 := by
      apply cg_zero
      rintro ⟨h1, h2, _⟩
      have ha' : (a : ℝ) ≤ T := by have : a ≤ T := by simp at ha; omega
                                   exact_mod_cast this
      apply hr
      have ha0 : (0 : ℝ) ≤ a := Nat.cast_nonneg a
      constructor
      · have : (2 : ℝ) * b ≤ T + σ := by linarith
        exact_mod_cast this
      · have : (σ : ℝ) ≤ 2 * b + T := by linarith
        exact_mod_cast this
    rw [this, zero_mul]

/-- The orbital part of the couplings. -/
theorem orbital (T σ ℓ ℓ' : Nat) (hp : 2 ∣ T + σ) (h1 : 2 * ℓ ≤ T + σ) (h2 : T ≤ 2 * ℓ + σ) (h3 : σ ≤ 2 * ℓ + T)
    (h1' : 2 * ℓ' ≤ T + σ) (h2' : T ≤ 2 * ℓ' + σ) (h3' : σ ≤ 2 * ℓ' + T) :
    ∑ K ∈ range (σ + 1), (√((2 * ℓ + 1) / (2 * (T / 2 : ℝ) + 1)) * CG ℓ 0 (σ / 2) (K - σ / 2) (T / 2) (K - σ / 2)) *
      (√((2 * ℓ' + 1) / (2 * (T / 2 : ℝ) + 1)) * CG ℓ' 0 (σ / 2) (K - σ / 2) (T / 2) (K - σ / 2)) = if ℓ = ℓ' then 1 else 0 := by
  have hcross : ∀ ℓ : Nat, 2 * ℓ ≤ T + σ → T ≤ 2 * ℓ + σ → σ ≤ 2 * ℓ + T → ∀ K : Nat, K ≤ σ →
      √((2 * ℓ + 1) / (2 * (T / 2 : ℝ) + 1)) * CG ℓ 0 (σ / 2) (K - σ / 2) (T / 2) (K - σ / 2) =
        (-1 : ℝ) ^ (((T + σ) / 2 : Nat) - (ℓ : ℤ) - K) * CG (T / 2) (-(((σ - K : Nat) : ℝ) - σ / 2)) (σ / 2) (((σ - K : Nat) : ℝ) - σ / 2) ℓ 0 := by
    intro ℓ h1 h2 h3 K hK
    obtain ⟨w, hw⟩ := hp
    have hw' : ((T + σ) / 2 : Nat) = w := by omega
    have hwr : (T : ℝ) + σ = 2 * w := by exact_mod_cast hw
    have := cg_crossing ℓ 0 (σ / 2) (K - σ / 2) (T / 2) (K - σ / 2) ((w : ℤ) - ℓ - K) (ℓ + σ - w) (w - ℓ) (by push_cast; linarith)
      (by rw [Nat.cast_sub (by omega)]; push_cast; linarith) (by rw [Nat.cast_sub (by omega)]; linarith) (by positivity) (by positivity)
    rw [Real.sqrt_div (by positivity), div_mul_eq_mul_div, this, hw', Nat.cast_sub hK, show -((σ : ℝ) - K - σ / 2) = (K : ℝ) - σ / 2 by ring,
      show ((σ : ℝ) - K - σ / 2) = -((K : ℝ) - σ / 2) by ring]
    have hpos : √(2 * (T / 2 : ℝ) + 1) ≠ 0 := (Real.sqrt_pos.2 (by positivity)).ne'
    field_simp
  have hsum : ∀ K ∈ range (σ + 1), (√((2 * ℓ + 1) / (2 * (T / 2 : ℝ) + 1)) * CG ℓ 0 (σ / 2) (K - σ / 2) (T / 2) (K - σ / 2)) *
      (√((2 * ℓ' + 1) / (2 * (T / 2 : ℝ) + 1)) * CG ℓ' 0 (σ / 2) (K - σ / 2) (T / 2) (K - σ / 2)) =
      (-1 : ℝ) ^ (ℓ + ℓ') * ∑ a ∈ range (T + 1), CG (T / 2) (a - T / 2) (σ / 2) (((σ - K : Nat) : ℝ) - σ / 2) ℓ 0 *
        CG (T / 2) (a - T / 2) (σ / 2) (((σ - K : Nat) : ℝ) - σ / 2) ℓ' 0 := by
    intro K hK
    have hK' : K ≤ σ := by simp at hK; omega
    rw [hcross ℓ h1 h2 h3 K hK', hcross ℓ' h1' h2' h3' K hK', collapse T σ (σ - K) ℓ ℓ' hp (by omega)]
    have hsgn : (-1 : ℝ) ^ (((T + σ) / 2 : Nat) - (ℓ : ℤ) - K) * (-1 : ℝ) ^ (((T + σ) / 2 : Nat) - (ℓ' : ℤ) - K) = (-1) ^ (ℓ + ℓ') := by
      rw [← zpow_add₀ (by norm_num), ← zpow_natCast, show (((T + σ) / 2 : Nat) - (ℓ : ℤ) - K) + (((T + σ) / 2 : Nat) - (ℓ' : ℤ) - K) =
        2 * (((T + σ) / 2 : Nat) - (ℓ : ℤ) - K - ℓ') + ((ℓ + ℓ' : Nat) : ℤ) by push_cast; ring, zpow_add₀ (by norm_num), zpow_mul]
      norm_num
    rw [← hsgn]; ring
  rw [sum_congr rfl hsum, ← mul_sum, ← sum_range_reflect]
  simp only [Nat.add_sub_cancel]
  have hback : ∑ j ∈ range (σ + 1), ∑ a ∈ range (T + 1), CG (T / 2) (a - T / 2) (σ / 2) (((σ - (σ - j) : Nat) : ℝ) - σ / 2) ℓ 0 *
        CG (T / 2) (a - T / 2) (σ / 2) (((σ - (σ - j) : Nat) : ℝ) - σ / 2) ℓ' 0 =
      ∑ a ∈ range (T + 1), ∑ b ∈ range (σ + 1), CG (T / 2) (a - T / 2) (σ / 2) ((b : ℝ) - σ / 2) ℓ 0 * CG (T / 2) (a - T / 2) (σ / 2) ((b : ℝ) - σ / 2) ℓ' 0 := by
    rw [sum_comm]
    refine sum_congr rfl fun a _ => sum_congr rfl fun b hb => ?_
    rw [show σ - (σ - b) = b by simp at hb; omega]
  rw [hback]
  obtain ⟨w, hw⟩ := hp
  have hwr : (T : ℝ) + σ = 2 * w := by exact_mod_cast hw
  have := cg_orthonormal T σ (w - ℓ) (w - ℓ') ℓ ℓ' (by omega) (by omega) (by omega) (by omega)
  rw [show ((T : ℝ) + σ) / 2 - ((w - ℓ : Nat) : ℝ) = ℓ by rw [Nat.cast_sub (by omega)]; linarith,
    show ((T : ℝ) + σ) / 2 - ((w - ℓ' : Nat) : ℝ) = ℓ' by rw [Nat.cast_sub (by omega)]; linarith, sub_self, sub_self] at this
  rw [this]
  by_cases hl : ℓ = ℓ'
  · subst hl
    simp only [and_self, if_true, mul_one]
    rw [← two_mul, pow_mul]; norm_num
  · simp [hl]

/-- C106.  The helicity couplings that belong to different pairs of an orbital angular momentum and a total spin are at right angles, and those of one pair
have length one.  The spins of the particles are `T / 2` for the mother, `A / 2` and `B / 2` for its decay products, the total spin of these is
`(A + B) / 2 - n`, and the pairs satisfy the triangle rules. -/
theorem helicity_couplings_orthonormal (A B T n n' ℓ ℓ' : Nat) (h : n ≤ min A B) (h' : n' ≤ min A B) (hp : 2 ∣ T + A + B)
    (h1 : 2 * ℓ ≤ T + (A + B - 2 * n)) (h2 : T ≤ 2 * ℓ + (A + B - 2 * n)) (h3 : A + B - 2 * n ≤ 2 * ℓ + T)
    (h1' : 2 * ℓ' ≤ T + (A + B - 2 * n')) (h2' : T ≤ 2 * ℓ' + (A + B - 2 * n')) (h3' : A + B - 2 * n' ≤ 2 * ℓ' + T) :
    ∑ a ∈ range (A + 1), ∑ b ∈ range (B + 1),
      coupling (recouplingConstants (T / 2) ℓ ((A + B) / 2 - n) (A / 2) (B / 2)) (a - A / 2) (b - B / 2) *
      coupling (recouplingConstants (T / 2) ℓ' ((A + B) / 2 - n') (A / 2) (B / 2)) (a - A / 2) (b - B / 2) = if n = n' ∧ ℓ = ℓ' then 1 else 0 := by
  let g : Nat → Nat → Nat → ℝ := fun n ℓ c => √((2 * ℓ + 1) / (2 * (T / 2 : ℝ) + 1)) * CG ℓ 0 ((A + B) / 2 - n) (c - (A + B) / 2) (T / 2) (c - (A + B) / 2)
  let f : Nat → Nat → Nat → Nat → ℝ := fun n c a b => CG (A / 2) (a - A / 2) (B / 2) (b - B / 2) ((A + B) / 2 - n) (c - (A + B) / 2)
  have hfz : ∀ n c a b, c ≠ a + b → f n c a b = 0 := by
    intro n c a b hne
    apply cg_zero
    rintro ⟨k, _⟩
    apply hne
    have : (c : ℝ) = a + b := by linarith
    exact_mod_cast this
  have hterm : ∀ n ℓ a b : Nat, a ≤ A → b ≤ B → coupling (recouplingConstants (T / 2) ℓ ((A + B) / 2 - n) (A / 2) (B / 2)) (a - A / 2) (((B - b : Nat) : ℝ) - B / 2) =
      g n ℓ (a + b) * f n (a + b) a b := by
    intro n ℓ a b ha hb
    rw [coupling_eq _ _ _ A B a (B - b) ha (by omega)]
    simp only [recoupling, g, f]
    have e1 : -((((B - b : Nat)) : ℝ) - B / 2) = (b : ℝ) - B / 2 := by rw [Nat.cast_sub hb]; ring
    have e2 : ((a : ℝ) - A / 2) - (((B - b : Nat) : ℝ) - B / 2) = ((a + b : Nat) : ℝ) - (A + B) / 2 := by rw [Nat.cast_sub hb]; push_cast; ring
    rw [e1, e2]; ring
  have hrefl : ∀ a ∈ range (A + 1), ∑ b ∈ range (B + 1), coupling (recouplingConstants (T / 2) ℓ ((A + B) / 2 - n) (A / 2) (B / 2)) (a - A / 2) (b - B / 2) *
      coupling (recouplingConstants (T / 2) ℓ' ((A + B) / 2 - n') (A / 2) (B / 2)) (a - A / 2) (b - B / 2) =
      ∑ b ∈ range (B + 1), ∑ c ∈ range (A + B + 1), (g n ℓ c * g n' ℓ' c) * (f n c a b * f n' c a b) := by
    intro a ha
    have ha' : a ≤ A := by simp at ha; omega
    rw [← sum_range_reflect]
    refine sum_congr rfl fun b hb => ?_
    have hb' : b ≤ B := by simp at hb; omega
    rw [show B + 1 - 1 - b = B - b by omega, hterm n ℓ a b ha' hb', hterm n' ℓ' a b ha' hb', sum_eq_single (a + b)]
    · ring
    · intro c _ hc; rw [hfz n c a b hc]; ring
    · intro hn; simp at hn; omega
  rw [sum_congr rfl hrefl]
  have hswap : ∑ a ∈ range (A + 1), ∑ b ∈ range (B + 1), ∑ c ∈ range (A + B + 1), (g n ℓ c * g n' ℓ' c) * (f n c a b * f n' c a b) =
      ∑ c ∈ range (A + B + 1), (g n ℓ c * g n' ℓ' c) * ∑ a ∈ range (A + 1), ∑ b ∈ range (B + 1), f n c a b * f n' c a b := by
    have : ∀ a ∈ range (A + 1), ∑ b ∈ range (B + 1), ∑ c ∈ range (A + B + 1), (g n ℓ c * g n' ℓ' c) * (f n c a b * f n' c a b) =
        ∑ c ∈ range (A + B + 1), ∑ b ∈ range (B + 1), (g n ℓ c * g n' ℓ' c) * (f n c a b * f n' c a b) := fun a _ => sum_comm
    rw [sum_congr rfl this, sum_comm]
    refine sum_congr rfl fun c _ => ?_
    rw [mul_sum]
    refine sum_congr rfl fun a _ => ?_
    rw [mul_sum]
  rw [hswap]
  have hinner : ∀ c ∈ range (A + B + 1), (g n ℓ c * g n' ℓ' c) * ∑ a ∈ range (A + 1), ∑ b ∈ range (B + 1), f n c a b * f n' c a b =
      if n = n' ∧ n ≤ c ∧ c + n ≤ A + B then g n ℓ c * g n' ℓ' c else 0 := by
    intro c hc
    have := couplings_inner A B n n' c h h' (by simp at hc; omega)
    simp only [f]
    rw [this]
    split <;> simp
  rw [sum_congr rfl hinner]
  by_cases hnn : n = n'
  · subst hnn
    simp only [true_and]
    rw [← sum_filter]
    have hsub : (range (A + B + 1)).filter (fun c => n ≤ c ∧ c + n ≤ A + B) = (range (A + B - 2 * n + 1)).image (fun K => n + K) := by
      ext c
      simp only [mem_filter, mem_range, mem_image]
      constructor
      · rintro ⟨_, hh⟩; exact ⟨c - n, by omega, by omega⟩
      · rintro ⟨i, hi, rfl⟩; omega
    rw [hsub, sum_image (by intro x _ y _ hxy; simpa using hxy), ← orbital T (A + B - 2 * n) ℓ ℓ' (by omega) h1 h2 h3 h1' h2' h3']
    refine sum_congr rfl fun K _ => ?_
    simp only [g]
    have e1 : ((A : ℝ) + B) / 2 - n = ((A + B - 2 * n : Nat) : ℝ) / 2 := by rw [Nat.cast_sub (by omega)]; push_cast; ring
    have e2 : ((n + K : Nat) : ℝ) - (A + B) / 2 = (K : ℝ) - ((A + B - 2 * n : Nat) : ℝ) / 2 := by rw [Nat.cast_sub (by omega)]; push_cast; ring
    rw [e1, e2]
  · simp [hnn]

/-- The decay of a particle of spin 1 to two of spin 1/2 and 3/2, with `(L, S)` equal to `(1, 1)` and `(3, 2)`. -/
example : 1 ≤ min 1 3 ∧ 0 ≤ min 1 3 ∧ 2 ∣ 2 + 1 + 3 ∧ 2 * 1 ≤ 2 + (1 + 3 - 2 * 1) ∧ 2 ≤ 2 * 1 + (1 + 3 - 2 * 1) ∧ 1 + 3 - 2 * 1 ≤ 2 * 1 + 2 ∧
    2 * 3 ≤ 2 + (1 + 3 - 2 * 0) ∧ 2 ≤ 2 * 3 + (1 + 3 - 2 * 0) ∧ 1 + 3 - 2 * 0 ≤ 2 * 3 + 2 := by decide

end AmpGen.Spin
