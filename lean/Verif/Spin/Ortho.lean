import Mathlib.Data.Nat.Choose.Vandermonde
import Mathlib.Algebra.BigOperators.Ring.Finset
import Verif.Spin.Lemmas
/-
The polynomials behind the Clebsch-Gordan coefficients.  An array `c` stands for the polynomial with the terms `c a b x₁^a y₁^(A-a) x₂^b y₂^(B-b)`.
-/
namespace AmpGen.Spin
open Finset

/-- Multiplication with `x₁^m x₂^k`, up to powers of `y`. -/
def sh (m k : Nat) (c : Nat → Nat → ℝ) (a b : Nat) : ℝ := if m ≤ a ∧ k ≤ b then c (a - m) (b - k) else 0

/-- Multiplication with `x₁ y₂ - y₁ x₂`. -/
def dl (c : Nat → Nat → ℝ) (a b : Nat) : ℝ := sh 1 0 c a b - sh 0 1 c a b

def dn : Nat → (Nat → Nat → ℝ) → Nat → Nat → ℝ
  | 0, c => c
  | n + 1, c => dl (dn n c)

theorem sh_sh (m k m' k' : Nat) (c : Nat → Nat → ℝ) (a b : Nat) : sh m k (sh m' k' c) a b = sh (m + m') (k + k') c a b := by
  unfold sh
  by_cases h : m + m' ≤ a ∧ k + k' ≤ b
  · rw [if_pos (by omega), if_pos (by omega), if_pos h]; congr 1 <;> omega
  · rw [if_neg h]
    split
    · rw [if_neg (by omega)]
    · rfl

theorem sh_sum (m k : Nat) (s : Finset Nat) (f : Nat → Nat → Nat → ℝ) (a b : Nat) :
    sh m k (fun a b => ∑ i ∈ s, f i a b) a b = ∑ i ∈ s, sh m k (f i) a b := by
  unfold sh
  split <;> simp

theorem sh_smul (m k : Nat) (r : ℝ) (c : Nat → Nat → ℝ) (a b : Nat) : sh m k (fun a b => r * c a b) a b = r * sh m k c a b := by
  unfold sh
  split <;> simp

theorem dn_eq (n : Nat) (c : Nat → Nat → ℝ) : ∀ a b, dn n c a b = ∑ ν ∈ range (n + 1), ((-1) ^ ν * n.choose ν) * sh (n - ν) ν c a b := by
  induction n with
  | zero => intro a b; simp [dn, sh]
  | succ n ih =>
    intro a b
    have hf : dn n c = fun a b => ∑ ν ∈ range (n + 1), ((-1) ^ ν * n.choose ν) * sh (n - ν) ν c a b := by
      funext a b; exact ih a b
    unfold dn dl
    rw [hf, sh_sum, sh_sum]
    have e1 : ∑ ν ∈ range (n + 1), sh 1 0 (fun a b => ((-1 : ℝ) ^ ν * n.choose ν) * sh (n - ν) ν c a b) a b =
        sh (n + 1) 0 c a b + ∑ ν ∈ range (n + 1), ((-1 : ℝ) ^ (ν + 1) * n.choose (ν + 1)) * sh (n - ν) (ν + 1) c a b := by
      have : ∀ ν ∈ range (n + 1), sh 1 0 (fun a b => ((-1 : ℝ) ^ ν * n.choose ν) * sh (n - ν) ν c a b) a b = ((-1 : ℝ) ^ ν * n.choose ν) * sh (n + 1 - ν) ν c a b := by
        intro ν hν
        rw [sh_smul, sh_sh, show 1 + (n - ν) = n + 1 - ν by simp at hν; omega, zero_add]
      rw [sum_congr rfl this, sum_range_succ', add_comm, sum_range_succ]
      simp only [pow_zero, Nat.choose_zero_right, Nat.cast_one, one_mul, Nat.sub_zero, Nat.choose_succ_self, Nat.cast_zero, mul_zero, zero_mul, add_zero]
      congr 1
      refine sum_congr rfl fun ν hν => ?_
      rw [show n + 1 - (ν + 1) = n - ν by omega]
    have e2 : ∑ ν ∈ range (n + 1), sh 0 1 (fun a b => ((-1 : ℝ) ^ ν * n.choose ν) * sh (n - ν) ν c a b) a b =
        ∑ ν ∈ range (n + 1), ((-1 : ℝ) ^ ν * n.choose ν) * sh (n - ν) (ν + 1) c a b := by
      refine sum_congr rfl fun ν _ => ?_
      rw [sh_smul, sh_sh, zero_add, add_comm 1 ν]
    rw [e1, e2, sum_range_succ' _ (n + 1)]
    simp only [pow_zero, Nat.choose_zero_right, Nat.cast_one, one_mul, Nat.sub_zero]
    rw [add_comm _ (sh (n + 1) 0 c a b), add_sub_assoc, ← sum_sub_distrib]
    congr 1
    refine sum_congr rfl fun ν _ => ?_
    rw [show n + 1 - (ν + 1) = n - ν by omega, Nat.choose_succ_succ]
    push_cast
    ring

/-- The scalar product in which the normalised monomials are orthonormal. -/
noncomputable def ip (A B : Nat) (c d : Nat → Nat → ℝ) : ℝ :=
  ∑ a ∈ range (A + 1), ∑ b ∈ range (B + 1), c a b * d a b * (a.factorial * (A - a).factorial * (b.factorial * (B - b).factorial))

theorem ip_comm (A B : Nat) (c d : Nat → Nat → ℝ) : ip A B c d = ip A B d c := by
  unfold ip
  refine sum_congr rfl fun a _ => sum_congr rfl fun b _ => ?_
  ring

theorem ip_smul (A B : Nat) (r : ℝ) (c d : Nat → Nat → ℝ) : ip A B c (fun a b => r * d a b) = r * ip A B c d := by
  unfold ip
  rw [mul_sum]
  refine sum_congr rfl fun a _ => ?_
  rw [mul_sum]
  refine sum_congr rfl fun b _ => ?_
  ring

/-- The derivative `∂x₁ ∂y₂ - ∂y₁ ∂x₂`. -/
noncomputable def om (A B : ℝ) (d : Nat → Nat → ℝ) (a b : Nat) : ℝ := (a + 1) * (B + 1 - b) * d (a + 1) b - (A + 1 - a) * (b + 1) * d a (b + 1)

def Supp (A B : Nat) (c : Nat → Nat → ℝ) : Prop := ∀ a b, ¬ (a ≤ A ∧ b ≤ B) → c a b = 0

theorem Supp.dl {A B : Nat} {c : Nat → Nat → ℝ} (h : Supp A B c) : Supp (A + 1) (B + 1) (dl c) := by
  intro a b hab
  unfold Spin.dl sh
  have h1 : (if 1 ≤ a ∧ 0 ≤ b then c (a - 1) (b - 0) else 0) = 0 := by
    split
    · exact h _ _ (by omega)
    · rfl
  have h2 : (if 0 ≤ a ∧ 1 ≤ b then c (a - 0) (b - 1) else 0) = 0 := by
    split
    · exact h _ _ (by omega)
    · rfl
  rw [h1, h2, sub_zero]

theorem Supp.dn {A B : Nat} {c : Nat → Nat → ℝ} (h : Supp A B c) : ∀ n, Supp (A + n) (B + n) (dn n c)
  | 0 => h
  | n + 1 => Supp.dl (Supp.dn h n)

/-- The derivative is adjoint to the multiplication. -/
theorem adjoint (A B : Nat) (c d : Nat → Nat → ℝ) (h : Supp A B c) : ip (A + 1) (B + 1) (dl c) d = ip A B c (om A B d) := by
  have e1 : ∑ a ∈ range (A + 1 + 1), ∑ b ∈ range (B + 1 + 1), sh 1 0 c a b * d a b * (a.factorial * (A + 1 - a).factorial * (b.factorial * (B + 1 - b).factorial)) =
      ∑ a ∈ range (A + 1), ∑ b ∈ range (B + 1), c a b * ((a + 1) * ((B : ℝ) + 1 - b) * d (a + 1) b) * (a.factorial * (A - a).factorial * (b.factorial * (B - b).factorial)) := by
    rw [sum_range_succ']
    have h0 : ∑ b ∈ range (B + 1 + 1), sh 1 0 c 0 b * d 0 b * ((Nat.factorial 0 : ℝ) * (A + 1 - 0).factorial * (b.factorial * (B + 1 - b).factorial)) = 0 :=
      sum_eq_zero fun b _ => by simp [sh]
    rw [h0, add_zero]
    refine sum_congr rfl fun a _ => ?_
    rw [sum_range_succ]
    have hl : sh 1 0 c (a + 1) (B + 1) = 0 := by
      unfold sh
      rw [if_pos (by omega)]
      exact h _ _ (by omega)
    rw [hl, zero_mul, zero_mul, add_zero]
    refine sum_congr rfl fun b hb => ?_
    have hb' : b ≤ B := by simp at hb; omega
    have hs : sh 1 0 c (a + 1) b = c a b := by simp [sh]
    rw [hs, show A + 1 - (a + 1) = A - a by omega, show B + 1 - b = (B - b) + 1 by omega, Nat.factorial_succ, Nat.factorial_succ]
    push_cast [Nat.cast_sub hb']
    ring
  have e2 : ∑ a ∈ range (A + 1 + 1), ∑ b ∈ range (B + 1 + 1), sh 0 1 c a b * d a b * (a.factorial * (A + 1 - a).factorial * (b.factorial * (B + 1 - b).factorial)) =
      ∑ a ∈ range (A + 1), ∑ b ∈ range (B + 1), c a b * (((A : ℝ) + 1 - a) * (b + 1) * d a (b + 1)) * (a.factorial * (A - a).factorial * (b.factorial * (B - b).factorial)) := by
    rw [sum_range_succ]
    have h0 : ∑ b ∈ range (B + 1 + 1), sh 0 1 c (A + 1) b * d (A + 1) b * ((A + 1).factorial * (A + 1 - (A + 1)).factorial * (b.factorial * (B + 1 - b).factorial)) = 0 := by
      refine sum_eq_zero fun b _ => ?_
      have : sh 0 1 c (A + 1) b = 0 := by
        unfold sh
        split
        · exact h _ _ (by omega)
        · rfl
      rw [this, zero_mul, zero_mul]
    rw [h0, add_zero]
    refine sum_congr rfl fun a ha => ?_
    have ha' : a ≤ A := by simp at ha; omega
    rw [sum_range_succ']
    have hl : sh 0 1 c a 0 = 0 := by simp [sh]
    rw [hl, zero_mul, zero_mul, add_zero]
    refine sum_congr rfl fun b _ => ?_
    have hs : sh 0 1 c a (b + 1) = c a b := by simp [sh]
    rw [hs, show B + 1 - (b + 1) = B - b by omega, show A + 1 - a = (A - a) + 1 by omega, Nat.factorial_succ, Nat.factorial_succ]
    push_cast [Nat.cast_sub ha']
    ring
  unfold ip dl om
  have : ∀ a ∈ range (A + 1 + 1), ∑ b ∈ range (B + 1 + 1), (sh 1 0 c a b - sh 0 1 c a b) * d a b * (a.factorial * (A + 1 - a).factorial * (b.factorial * (B + 1 - b).factorial)) =
      ∑ b ∈ range (B + 1 + 1), sh 1 0 c a b * d a b * (a.factorial * (A + 1 - a).factorial * (b.factorial * (B + 1 - b).factorial)) -
      ∑ b ∈ range (B + 1 + 1), sh 0 1 c a b * d a b * (a.factorial * (A + 1 - a).factorial * (b.factorial * (B + 1 - b).factorial)) := by
    intro a _
    rw [← sum_sub_distrib]
    refine sum_congr rfl fun b _ => ?_
    ring
  rw [sum_congr rfl this, sum_sub_distrib, e1, e2, ← sum_sub_distrib]
  refine sum_congr rfl fun a _ => ?_
  rw [← sum_sub_distrib]
  refine sum_congr rfl fun b _ => ?_
  ring

/-- The commutator of the derivative and the multiplication. -/
theorem om_dl (A B : ℝ) (c : Nat → Nat → ℝ) (a b : Nat) : om A B (dl c) a b = dl (om (A - 1) (B - 1) c) a b + (A + B + 2) * c a b := by
  unfold om dl sh
  rcases a with _ | a <;> rcases b with _ | b <;> simp <;> ring

theorem om_smul (A B r : ℝ) (c : Nat → Nat → ℝ) : om A B (fun a b => r * c a b) = fun a b => r * om A B c a b := by
  funext a b; unfold om; ring

theorem dl_smul (r : ℝ) (c : Nat → Nat → ℝ) : dl (fun a b => r * c a b) = fun a b => r * dl c a b := by
  funext a b; unfold dl; rw [sh_smul, sh_smul]; ring

theorem om_dn (p q : ℝ) (g : Nat → Nat → ℝ) (hg : om (p - 1) (q - 1) g = fun _ _ => 0) (i : Nat) :
    om (p + i) (q + i) (dn (i + 1) g) = fun a b => ((i + 1) * (p + q + i + 2)) * dn i g a b := by
  induction i with
  | zero =>
    funext a b
    simp only [dn]
    rw [om_dl]
    simp only [Nat.cast_zero, add_zero]
    rw [hg]
    simp [dl, sh]
  | succ i ih =>
    funext a b
    have : dn (i + 1 + 1) g = dl (dn (i + 1) g) := rfl
    rw [this, om_dl, show p + ((i + 1 : Nat) : ℝ) - 1 = p + i by push_cast; ring, show q + ((i + 1 : Nat) : ℝ) - 1 = q + i by push_cast; ring, ih, dl_smul]
    have h2 : dl (dn i g) a b = dn (i + 1) g a b := rfl
    simp only [h2]; push_cast; ring

/-- The symmetric products. -/
def gg (p q K a b : Nat) : ℝ := if a + b = K then p.choose a * q.choose b else 0

theorem gg_supp (p q K : Nat) : Supp p q (gg p q K) := by
  intro a b h
  unfold gg
  split
  · rcases Nat.lt_or_ge p a with h' | h'
    · rw [Nat.choose_eq_zero_of_lt h']; simp
    · rw [Nat.choose_eq_zero_of_lt (show q < b by omega)]; simp
  · rfl

theorem choose_step (p a : Nat) : ((a : ℝ) + 1) * p.choose (a + 1) = ((p : ℝ) - a) * p.choose a := by
  rcases Nat.lt_or_ge p a with h | h
  · rw [Nat.choose_eq_zero_of_lt h, Nat.choose_eq_zero_of_lt (by omega)]; simp
  · have := Nat.choose_succ_right_eq p a
    rw [← Nat.cast_sub h]
    have h' : ((p.choose (a + 1) : ℝ)) * (a + 1) = p.choose a * (p - a : Nat) := by exact_mod_cast this
    linarith

theorem om_gg (p q K : Nat) : om ((p : ℝ) - 1) ((q : ℝ) - 1) (gg p q K) = fun _ _ => 0 := by
  funext a b
  unfold om gg
  by_cases h : a + 1 + b = K
  · rw [if_pos h, if_pos (by omega)]
    have h1 := choose_step p a
    have h2 := choose_step q b
    push_cast
    linear_combination ((q : ℝ) - b) * (q.choose b) * h1 - ((p : ℝ) - a) * (p.choose a) * h2
  · rw [if_neg h, if_neg (by omega)]; ring

theorem fact_choose (p a : Nat) (h : a ≤ p) : (p.choose a : ℝ) * (a.factorial * (p - a).factorial) = p.factorial := by
  rw [← mul_assoc]; exact_mod_cast Nat.choose_mul_factorial_mul_factorial h

theorem ip_gg (p q K K' : Nat) : ip p q (gg p q K) (gg p q K') = if K = K' then (p.factorial : ℝ) * q.factorial * (p + q).choose K else 0 := by
  have h1 : ∀ a ∈ range (p + 1), ∀ b ∈ range (q + 1), gg p q K a b * gg p q K' a b * (a.factorial * (p - a).factorial * (b.factorial * (q - b).factorial)) =
      if K = K' then (p.factorial * q.factorial) * (if a + b = K then (p.choose a : ℝ) * q.choose b else 0) else 0 := by
    intro a ha b hb
    have e1 := fact_choose p a (by simp at ha; omega)
    have e2 := fact_choose q b (by simp at hb; omega)
    unfold gg
    by_cases hK : K = K'
    · subst hK
      rw [if_pos rfl]
      split
      · rw [← e1, ← e2]; ring
      · ring
    · rw [if_neg hK]
      by_cases h : a + b = K
      · rw [if_neg (by omega : ¬ a + b = K')]; ring
      · rw [if_neg h]; ring
  unfold ip
  rw [sum_congr rfl fun a ha => sum_congr rfl (h1 a ha)]
  split
  · simp only [← mul_sum]
    congr 1
    rw [Nat.add_choose_eq, Nat.cast_sum, ← sum_product', ← sum_filter]
    push_cast
    refine sum_subset ?_ ?_
    · rintro ⟨a, b⟩ h
      simp only [mem_filter, mem_product, mem_range] at h
      simp [h.2]
    · rintro ⟨a, b⟩ h hn
      simp only [mem_antidiagonal] at h
      simp only [mem_filter, mem_product, mem_range, not_and] at hn
      rcases Nat.lt_or_ge p a with h' | h'
      · simp [Nat.choose_eq_zero_of_lt h']
      · have : q < b := by by_contra hq; exact hn ⟨by omega, by omega⟩ h
        simp [Nat.choose_eq_zero_of_lt this]
  · simp

theorem ip_dn_same (p q K K' : Nat) : ∀ n, ip (p + n) (q + n) (dn n (gg p q K)) (dn n (gg p q K')) =
    if K = K' then (n.factorial : ℝ) * (p + q + n + 1).factorial / (p + q + 1).factorial * (p.factorial * q.factorial * (p + q).choose K) else 0
  | 0 => by
    rw [Nat.add_zero, Nat.add_zero]
    simp only [dn]
    rw [ip_gg, Nat.factorial_zero, Nat.add_zero, Nat.cast_one, one_mul, div_self (by positivity)]
    simp
  | n + 1 => by
    have := adjoint (p + n) (q + n) (dn n (gg p q K)) (dn (n + 1) (gg p q K')) ((gg_supp p q K).dn n)
    push_cast at this
    rw [om_dn p q _ (om_gg p q K') n, ip_smul, ip_dn_same p q K K' n] at this
    have h' : ip (p + (n + 1)) (q + (n + 1)) (dn (n + 1) (gg p q K)) (dn (n + 1) (gg p q K')) = ip (p + n + 1) (q + n + 1) (dl (dn n (gg p q K))) (dn (n + 1) (gg p q K')) := rfl
    rw [h', this]
    split
    · rw [show p + q + (n + 1) + 1 = (p + q + n + 1) + 1 by ring, Nat.factorial_succ n, Nat.factorial_succ (p + q + n + 1)]
      push_cast
      ring
    · ring

theorem ip_dn_less (p q K K' m : Nat) : ∀ n, ip (p + (m + 1) + n) (q + (m + 1) + n) (dn n (gg (p + (m + 1)) (q + (m + 1)) K)) (dn (n + (m + 1)) (gg p q K')) = 0
  | 0 => by
    have h := adjoint (p + m) (q + m) (dn m (gg p q K')) (gg (p + (m + 1)) (q + (m + 1)) K) ((gg_supp p q K').dn m)
    have h2 := om_gg (p + (m + 1)) (q + (m + 1)) K
    rw [show ((p + (m + 1) : Nat) : ℝ) - 1 = ((p + m : Nat) : ℝ) by push_cast; ring, show ((q + (m + 1) : Nat) : ℝ) - 1 = ((q + m : Nat) : ℝ) by push_cast; ring] at h2
    rw [h2] at h
    rw [ip_comm]
    simp only [Nat.add_zero, Nat.zero_add]
    have h' : ip (p + (m + 1)) (q + (m + 1)) (dn (m + 1) (gg p q K')) (dn 0 (gg (p + (m + 1)) (q + (m + 1)) K)) =
      ip (p + m + 1) (q + m + 1) (dl (dn m (gg p q K'))) (gg (p + (m + 1)) (q + (m + 1)) K) := rfl
    rw [h', h]
    simp [ip]
  | n + 1 => by
    have h := adjoint (p + (m + 1) + n) (q + (m + 1) + n) (dn n (gg (p + (m + 1)) (q + (m + 1)) K)) (dn (n + (m + 1) + 1) (gg p q K')) ((gg_supp _ _ K).dn n)
    have h2 := om_dn p q _ (om_gg p q K') (n + (m + 1))
    rw [show (p : ℝ) + ((n + (m + 1) : Nat) : ℝ) = ((p + (m + 1) + n : Nat) : ℝ) by push_cast; ring,
      show (q : ℝ) + ((n + (m + 1) : Nat) : ℝ) = ((q + (m + 1) + n : Nat) : ℝ) by push_cast; ring] at h2
    rw [h2, ip_smul, ip_dn_less p q K K' m n, mul_zero] at h
    rw [show n + 1 + (m + 1) = n + (m + 1) + 1 by ring]
    exact h

/-- The arrays of different spins or projections are orthogonal. -/
theorem ip_dn (A B n n' K K' : Nat) (h1 : n ≤ A) (h2 : n ≤ B) (h1' : n' ≤ A) (h2' : n' ≤ B) :
    ip A B (dn n (gg (A - n) (B - n) K)) (dn n' (gg (A - n') (B - n') K')) =
      if n = n' ∧ K = K' then (n.factorial : ℝ) * (A - n + (B - n) + n + 1).factorial / (A - n + (B - n) + 1).factorial *
        ((A - n).factorial * (B - n).factorial * (A - n + (B - n)).choose K) else 0 := by
  rcases Nat.lt_trichotomy n n' with h | h | h
  · obtain ⟨m, rfl⟩ : ∃ m, n' = n + (m + 1) := ⟨n' - n - 1, by omega⟩
    have := ip_dn_less (A - (n + (m + 1))) (B - (n + (m + 1))) K K' m n
    rw [show A - (n + (m + 1)) + (m + 1) + n = A by omega, show B - (n + (m + 1)) + (m + 1) + n = B by omega, show A - (n + (m + 1)) + (m + 1) = A - n by omega,
      show B - (n + (m + 1)) + (m + 1) = B - n by omega] at this
    rw [this, if_neg (by omega)]
  · subst h
    have := ip_dn_same (A - n) (B - n) K K' n
    rw [Nat.sub_add_cancel h1, Nat.sub_add_cancel h2] at this
    rw [this]
    simp
  · obtain ⟨m, rfl⟩ : ∃ m, n = n' + (m + 1) := ⟨n - n' - 1, by omega⟩
    have := ip_dn_less (A - (n' + (m + 1))) (B - (n' + (m + 1))) K' K m n'
    rw [show A - (n' + (m + 1)) + (m + 1) + n' = A by omega, show B - (n' + (m + 1)) + (m + 1) + n' = B by omega, show A - (n' + (m + 1)) + (m + 1) = A - n' by omega,
      show B - (n' + (m + 1)) + (m + 1) = B - n' by omega] at this
    rw [ip_comm, this, if_neg (by omega)]

end AmpGen.Spin
