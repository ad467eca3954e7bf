import Mathlib.Data.Nat.Choose.Sum
import Mathlib.Algebra.BigOperators.NatAntidiagonal
import Mathlib.Algebra.Polynomial.Roots
import Verif.Spin.Lemmas
import Verif.Wigner.Model
/- Lemmas on the rotation functions. -/
namespace AmpGen.Wigner

open AmpGen.Spin (fact fact_nat)
open Finset

theorem foldl_add_range (f : Nat → ℝ) (a : ℝ) (n : Nat) : (List.range n).foldl (fun (s : ℝ) (k : Nat) => s + f k) a = a + ∑ k ∈ range n, f k := by
  induction n with
  | zero => simp
  | succ n ih => rw [List.range_succ, List.foldl_append, ih, sum_range_succ]; simp [add_assoc]

theorem binomialCoefficient_eq (n r : Nat) (h : r ≤ n) : binomialCoefficient n r = (n.choose r : ℝ) := by
  unfold binomialCoefficient
  induction r with
  | zero => simp
  | succ r ih =>
    rw [List.range_succ, List.foldl_append, ih (by omega)]
    simp only [List.foldl_cons, List.foldl_nil]
    have h1 := Nat.choose_succ_right_eq n r
    have h2 : (n.choose (r + 1) : ℝ) * ((r : ℝ) + 1) = n.choose r * ((n : ℝ) - r) := by
      rw [← Nat.cast_sub (by omega)]; exact_mod_cast h1
    have h3 : ((r : ℝ) + 1) ≠ 0 := by positivity
    field_simp
    linarith

theorem fpow_eq {K : Type} [Field K] (x : K) (n : Nat) : fpow x n = x ^ n := by
  unfold fpow
  induction n with
  | zero => simp
  | succ n ih => rw [List.range_succ, List.foldl_append, ih]; simp [pow_succ]

theorem fpowInt_eq {K : Type} [Field K] (x : K) (n : ℤ) : fpowInt x n = x ^ n := by
  unfold fpowInt
  split
  · rename_i h
    obtain ⟨k, rfl⟩ : ∃ k : Nat, n = -(k : ℤ) := ⟨(-n).toNat, by omega⟩
    rw [fpow_eq]; simp
  · rename_i h
    obtain ⟨k, rfl⟩ : ∃ k : Nat, n = (k : ℤ) := ⟨n.toNat, by omega⟩
    rw [fpow_eq]; simp

theorem expandedBinomial_eq (x : ℝ) (n : Nat) : expandedBinomial x n = (1 + x) ^ n := by
  unfold expandedBinomial
  rw [foldl_add_range, add_comm (1 : ℝ) x, add_pow, zero_add]
  refine sum_congr rfl fun k hk => ?_
  rw [binomialCoefficient_eq n k (by simp at hk; omega), fpow_eq]; simp [mul_comm]

theorem toInt_nat (n : Nat) : toInt (n : ℝ) = n := by
  unfold toInt
  rw [if_neg (by simp)]; simp

theorem toInt_int (n : ℤ) : toInt (n : ℝ) = n := by
  unfold toInt
  split <;> simp

theorem toInt_half (n : Nat) : toInt ((n : ℝ) / 2) = (n / 2 : Nat) := by
  unfold toInt
  rw [if_neg (by simp; positivity), Int.floor_eq_iff]
  have : (n : ℝ) = 2 * (n / 2 : Nat) + (n % 2 : Nat) := by exact_mod_cast (Nat.div_add_mod n 2).symm
  have h2 : ((n % 2 : Nat) : ℝ) < 2 := by exact_mod_cast Nat.mod_lt n (by norm_num)
  have h3 : (0 : ℝ) ≤ ((n % 2 : Nat) : ℝ) := by positivity
  rw [Int.cast_natCast]
  constructor <;> linarith

theorem frac_half (n : Nat) : frac ((n : ℝ) / 2) = ((n % 2 : Nat) : ℝ) / 2 := by
  unfold frac
  rw [toInt_half]
  have : (n : ℝ) = 2 * (n / 2 : Nat) + (n % 2 : Nat) := by exact_mod_cast (Nat.div_add_mod n 2).symm
  rw [Int.cast_natCast]
  linarith

theorem sign_nat (n : Nat) : sign (n : ℤ) = (-1) ^ n := by
  unfold sign
  rcases Nat.even_or_odd n with h | h
  · rw [h.neg_one_pow, if_pos (by have := Nat.even_iff.1 h; omega)]
  · rw [h.neg_one_pow, if_neg (by have := Nat.odd_iff.1 h; omega)]

/-- The half-angle functions. -/
noncomputable def C (cb : ℝ) : ℝ := √((1 + cb) / 2)
noncomputable def S (cb : ℝ) : ℝ := √((1 - cb) / 2)

/-- The matrix of rotation with the sine and cosine of half of the angle, for spin `N / 2`. -/
noncomputable def D (N : Nat) (c s : ℝ) (a b : Nat) : ℝ :=
  ∑ k ∈ range (N + 1), if k ≤ a ∧ k ≤ b ∧ a + b ≤ N + k then
    (-1) ^ (a + k) * √(a.factorial * (N - a).factorial * b.factorial * (N - b).factorial) /
      (k.factorial * (a - k).factorial * (b - k).factorial * (N + k - a - b).factorial) * c ^ (N + 2 * k - a - b) * s ^ (a + b - 2 * k) else 0

theorem half_powers (cb : ℝ) (h1 : -1 ≤ cb) (h2 : cb ≤ 1) (p q : Nat) :
    (if p % 2 = 1 ∧ q % 2 ≠ 1 then √(1 + cb) else if p % 2 ≠ 1 ∧ q % 2 = 1 then √(1 - cb) else if p % 2 = 1 ∧ q % 2 = 1 then √(1 - cb * cb) else 1) *
      ((1 + cb) ^ (p / 2) * (1 - cb) ^ (q / 2)) = √(2 : ℝ) ^ (p + q) * (C cb ^ p * S cb ^ q) := by
  have hp : ∀ (x : ℝ) (n : Nat), 0 ≤ x → √x ^ n = x ^ (n / 2) * (if n % 2 = 1 then √x else 1) := by
    intro x n hx
    conv_lhs => rw [← Nat.div_add_mod n 2, pow_add, pow_mul, Real.sq_sqrt hx]
    rcases Nat.mod_two_eq_zero_or_one n with h | h <;> simp [h]
  have e1 : √(2 : ℝ) ^ p * C cb ^ p = √(1 + cb) ^ p := by
    rw [← mul_pow, C, ← Real.sqrt_mul (by norm_num)]; congr 2; ring
  have e2 : √(2 : ℝ) ^ q * S cb ^ q = √(1 - cb) ^ q := by
    rw [← mul_pow, S, ← Real.sqrt_mul (by norm_num)]; congr 2; ring
  have e3 : √(1 - cb * cb) = √(1 + cb) * √(1 - cb) := by
    rw [← Real.sqrt_mul (by linarith)]; congr 1; ring
  rw [pow_add, show √(2 : ℝ) ^ p * √2 ^ q * (C cb ^ p * S cb ^ q) = (√2 ^ p * C cb ^ p) * (√2 ^ q * S cb ^ q) by ring, e1, e2, hp _ p (by linarith),
    hp _ q (by linarith), e3]
  rcases Nat.mod_two_eq_zero_or_one p with h | h <;> rcases Nat.mod_two_eq_zero_or_one q with h' | h' <;> simp [h, h'] <;> ring

/-- The function of the code is the matrix. -/
theorem wigner_d_eq (cb : ℝ) (h1 : -1 ≤ cb) (h2 : cb ≤ 1) (N a b : Nat) (ha : a ≤ N) (hb : b ≤ N) :
    wigner_d cb (N / 2) (a - N / 2) (b - N / 2) = D N (C cb) (S cb) a b := by
  have hmin : toInt (max 0 (((a : ℝ) - N / 2) + (b - N / 2))) = ((a + b - N : Nat) : ℤ) := by
    have : max 0 (((a : ℝ) - N / 2) + (b - N / 2)) = ((a + b - N : Nat) : ℝ) := by
      rcases le_total (a + b) N with h | h
      · rw [max_eq_left, Nat.sub_eq_zero_of_le h]; · simp
        have : (a : ℝ) + b ≤ N := by exact_mod_cast h
        linarith
      · rw [max_eq_right, Nat.cast_sub h]; · push_cast; ring
        have : (N : ℝ) ≤ a + b := by exact_mod_cast h
        linarith
    rw [this, toInt_nat]
  have hmax : toInt (min ((N : ℝ) / 2 + (a - N / 2)) (N / 2 + (b - N / 2))) = ((min a b : Nat) : ℤ) := by
    have : min ((N : ℝ) / 2 + (a - N / 2)) (N / 2 + (b - N / 2)) = ((min a b : Nat) : ℝ) := by push_cast; congr 1 <;> ring
    rw [this, toInt_nat]
  have hja : toInt ((N : ℝ) / 2 + (a - N / 2)) = (a : ℤ) := by
    rw [show (N : ℝ) / 2 + (a - N / 2) = (a : ℝ) by ring, toInt_nat]
  unfold wigner_d
  simp only [hmin, hmax, hja, sign_nat]
  rw [foldl_add_range, zero_add, mul_sum]
  obtain ⟨km, hkm⟩ : ∃ km, a + b - N = km := ⟨_, rfl⟩
  rw [hkm]
  have hlen : (((min a b : Nat) : ℤ) + 1 - (km : ℤ)).toNat = min a b + 1 - km := by omega
  rw [hlen]
  have hterm : ∀ i ∈ range (min a b + 1 - km), (-1) ^ a * fractionalPart cb (N / 2) (a - N / 2) (b - N / 2) km *
      term cb (N / 2) (a - N / 2) (b - N / 2) ((km : ℤ) + (i : ℤ)) = (fun k : Nat => if k ≤ a ∧ k ≤ b ∧ a + b ≤ N + k then
    (-1) ^ (a + k) * √(a.factorial * (N - a).factorial * b.factorial * (N - b).factorial) /
      (k.factorial * (a - k).factorial * (b - k).factorial * (N + k - a - b).factorial) * (C cb) ^ (N + 2 * k - a - b) * (S cb) ^ (a + b - 2 * k) else 0) (km + i) := by
    intro i hi
    simp only [mem_range] at hi
    obtain ⟨k, hk⟩ : ∃ k, km + i = k := ⟨_, rfl⟩
    have hka : k ≤ a := by omega
    have hkb : k ≤ b := by omega
    have hkN : a + b ≤ N + k := by omega
    have hfrac1 : (((km : ℤ) : ℝ) - ((a : ℝ) - N / 2 + (b - N / 2)) / 2) = ((N + 2 * km - a - b : Nat) : ℝ) / 2 := by
      rw [show N + 2 * km - a - b = N + 2 * km - (a + b) by omega, Nat.cast_sub (by omega)]; push_cast; ring
    have hfrac2 : ((N : ℝ) / 2 + ((a : ℝ) - N / 2 + (b - N / 2)) / 2 - ((km : ℤ) : ℝ)) = ((a + b - 2 * km : Nat) : ℝ) / 2 := by
      rw [Nat.cast_sub (by omega)]; push_cast; ring
    have hpow1 : (((k : ℤ) : ℝ) - ((a : ℝ) - N / 2 + (b - N / 2)) / 2) = ((N + 2 * k - a - b : Nat) : ℝ) / 2 := by
      rw [show N + 2 * k - a - b = N + 2 * k - (a + b) by omega, Nat.cast_sub (by omega)]; push_cast; ring
    have hpow2 : ((N : ℝ) / 2 + ((a : ℝ) - N / 2 + (b - N / 2)) / 2 - ((k : ℤ) : ℝ)) = ((a + b - 2 * k : Nat) : ℝ) / 2 := by
      rw [Nat.cast_sub (by omega)]; push_cast; ring
    have hhalf : ∀ n : Nat, (((n % 2 : Nat) : ℝ) / 2 = 0.5) ↔ n % 2 = 1 := by
      intro n
      rcases Nat.mod_two_eq_zero_or_one n with h | h <;> rw [h] <;> norm_num
    have hF : fractionalPart cb (N / 2) (a - N / 2) (b - N / 2) km =
        (if (N + 2 * k - a - b) % 2 = 1 ∧ (a + b - 2 * k) % 2 ≠ 1 then √(1 + cb) else if (N + 2 * k - a - b) % 2 ≠ 1 ∧ (a + b - 2 * k) % 2 = 1 then √(1 - cb)
          else if (N + 2 * k - a - b) % 2 = 1 ∧ (a + b - 2 * k) % 2 = 1 then √(1 - cb * cb) else 1) := by
      unfold fractionalPart
      simp only [hfrac1, hfrac2, frac_half, hhalf, ne_eq]
      have q1 : (N + 2 * km - a - b) % 2 = (N + 2 * k - a - b) % 2 := by omega
      have q2 : (a + b - 2 * km) % 2 = (a + b - 2 * k) % 2 := by omega
      rw [q1, q2]
    have hint : ((km : ℤ) + (i : ℤ)) = (k : ℤ) := by omega
    simp only [hk, hint]
    rw [if_pos ⟨hka, hkb, hkN⟩, hF]
    unfold term
    simp only [hpow1, hpow2, toInt_half, Int.toNat_natCast, expandedBinomial_eq, sign_nat]
    have f1 : (N : ℝ) / 2 + (a - N / 2) = (a : ℝ) := by ring
    have f2 : (N : ℝ) / 2 - (a - N / 2) = ((N - a : Nat) : ℝ) := by rw [Nat.cast_sub ha]; ring
    have f3 : (N : ℝ) / 2 + (b - N / 2) = (b : ℝ) := by ring
    have f4 : (N : ℝ) / 2 - (b - N / 2) = ((N - b : Nat) : ℝ) := by rw [Nat.cast_sub hb]; ring
    have f5 : (N : ℝ) / 2 + (a - N / 2) - ((k : ℤ) : ℝ) = ((a - k : Nat) : ℝ) := by rw [Nat.cast_sub hka]; push_cast; ring
    have f6 : (N : ℝ) / 2 + (b - N / 2) - ((k : ℤ) : ℝ) = ((b - k : Nat) : ℝ) := by rw [Nat.cast_sub hkb]; push_cast; ring
    have f7 : ((k : ℤ) : ℝ) - (a - N / 2) - (b - N / 2) = ((N + k - a - b : Nat) : ℝ) := by
      rw [show N + k - a - b = N + k - (a + b) by omega, Nat.cast_sub (by omega)]; push_cast; ring
    have f8 : (((k : Nat) : ℤ) : ℝ) = (k : ℝ) := by push_cast; rfl
    rw [f5, f6, f7, f1, f2, f3, f4, f8]
    simp only [fact_nat]
    have hr : (2 : ℝ) ^ ((N : ℝ) / 2) = √2 ^ N := by
      rw [Real.sqrt_eq_rpow, ← Real.rpow_natCast, ← Real.rpow_mul (by norm_num)]; congr 1; ring
    rw [hr]
    have hh := half_powers cb h1 h2 (N + 2 * k - a - b) (a + b - 2 * k)
    rw [show N + 2 * k - a - b + (a + b - 2 * k) = N by omega] at hh
    obtain ⟨F, hFe⟩ : ∃ F, (if (N + 2 * k - a - b) % 2 = 1 ∧ (a + b - 2 * k) % 2 ≠ 1 then √(1 + cb) else if (N + 2 * k - a - b) % 2 ≠ 1 ∧ (a + b - 2 * k) % 2 = 1 then √(1 - cb)
          else if (N + 2 * k - a - b) % 2 = 1 ∧ (a + b - 2 * k) % 2 = 1 then √(1 - cb * cb) else 1) = F := ⟨_, rfl⟩
    rw [hFe] at hh ⊢
    rw [← sub_eq_add_neg]
    have h2' : (√2 : ℝ) ^ N ≠ 0 := by positivity
    have hd : ((k.factorial : ℝ) * (a - k).factorial * (b - k).factorial * (N + k - a - b).factorial) ≠ 0 := by positivity
    rw [pow_add]
    field_simp
    linear_combination hh
  rw [sum_congr rfl hterm, D]
  -- reindex
  have hsub : (range (N + 1)).filter (fun k => k ≤ a ∧ k ≤ b ∧ a + b ≤ N + k) = (range (min a b + 1 - km)).image (fun i => km + i) := by
    ext k
    simp only [mem_filter, mem_range, mem_image]
    constructor
    · rintro ⟨_, h⟩; exact ⟨k - km, by omega, by omega⟩
    · rintro ⟨i, hi, rfl⟩; omega
  symm
  rw [← sum_filter, hsub, sum_image (by intro x _ y _ h; simpa using h)]
  refine sum_congr rfl fun i hi => ?_
  simp only [mem_range] at hi
  have hc : km + i ≤ a ∧ km + i ≤ b ∧ a + b ≤ N + (km + i) := by omega
  simp only [if_pos hc]

end AmpGen.Wigner
