import Verif.Kahan.Lemmas
import Mathlib.Algebra.BigOperators.Group.List.Basic
/-
Exactness of the two-sum correction and error bounds of compensated summation.
-/
namespace AmpGen.Kahan

variable {p : Nat} {fl : ℚ → ℚ}

theorem isFloat_even (hk : ℤ) (s : ℤ) (h : |hk| ≤ 2 ^ p) : IsFloat p (((2 * hk : ℤ) : ℚ) * 2 ^ s) :=
  ⟨hk, s + 1, h, by rw [zpow_add₀ (by norm_num)]; push_cast; ring⟩

/-- The core, in units of the last place `2 ^ s` of the smaller operand. -/
theorem two_sum_core (h : Nearest p fl) (hp : 1 ≤ p) (A B s : ℤ) (hB : |B| ≤ 2 ^ p)
    (hA : |A| ≤ 2 ^ p ∨ ∃ k, A = 2 * k) (hAB : |B| ≤ |A|) (ha : IsFloat p ((A : ℚ) * 2 ^ s)) :
    IsFloat p ((A : ℚ) * 2 ^ s + B * 2 ^ s - fl ((A : ℚ) * 2 ^ s + B * 2 ^ s)) ∧
    IsFloat p (fl ((A : ℚ) * 2 ^ s + B * 2 ^ s) - (A : ℚ) * 2 ^ s) := by
  have hs : (0 : ℚ) < 2 ^ s := by positivity
  have hpow : ((2 : ℤ) ^ p : ℤ) = 2 * 2 ^ (p - 1) := by
    obtain ⟨q, rfl⟩ := Nat.exists_eq_add_of_le' hp
    rw [Nat.add_sub_cancel, pow_succ]; ring
  have hP1 : (1 : ℤ) ≤ 2 ^ (p - 1) := one_le_pow₀ (by norm_num)
  have hx : (A : ℚ) * 2 ^ s + B * 2 ^ s = ((A + B : ℤ) : ℚ) * 2 ^ s := by push_cast; ring
  by_cases hex : IsFloat p ((A : ℚ) * 2 ^ s + B * 2 ^ s)
  · rw [h.fix hex]
    refine ⟨by rw [sub_self]; exact isFloat_zero, ?_⟩
    have : (A : ℚ) * 2 ^ s + B * 2 ^ s - A * 2 ^ s = B * 2 ^ s := by ring
    rw [this]
    exact isFloat_int_mul B s hB
  · have hbig : (2 : ℤ) ^ p < |A + B| := by
      by_contra hle
      exact hex (by rw [hx]; exact isFloat_int_mul _ _ (not_lt.mp hle))
    -- the rounded sum is an even multiple of the unit
    have hT : ∃ T : ℤ, fl ((A : ℚ) * 2 ^ s + B * 2 ^ s) = ((2 * T : ℤ) : ℚ) * 2 ^ s := by
      obtain ⟨m, e, hm, he⟩ := h.float ((A : ℚ) * 2 ^ s + B * 2 ^ s)
      -- magnitude at least `2 ^ p` units
      have hge : (2 : ℚ) ^ p * 2 ^ s ≤ |fl ((A : ℚ) * 2 ^ s + B * 2 ^ s)| := by
        rcases le_or_gt 0 (A + B) with h0 | h0
        · have hf : IsFloat p (((2 ^ p : ℤ) : ℚ) * 2 ^ s) := isFloat_int_mul _ _ (by simp)
          have hn := h.nearest ((A : ℚ) * 2 ^ s + B * 2 ^ s) _ hf
          rw [abs_of_nonneg h0] at hbig
          have hb : ((2 ^ p : ℤ) : ℚ) * 2 ^ s < ((A + B : ℤ) : ℚ) * 2 ^ s :=
            mul_lt_mul_of_pos_right (Int.cast_lt.mpr hbig) hs
          rw [hx] at hn ⊢
          rw [abs_of_pos (a := ((A + B : ℤ) : ℚ) * 2 ^ s - ((2 ^ p : ℤ) : ℚ) * 2 ^ s) (by linarith)] at hn
          have h1 := (abs_le.mp hn).2
          push_cast at h1 ⊢
          exact le_trans (by linarith) (le_abs_self _)
        · have hf : IsFloat p (((-2 ^ p : ℤ) : ℚ) * 2 ^ s) := isFloat_int_mul _ _ (by simp)
          have hn := h.nearest ((A : ℚ) * 2 ^ s + B * 2 ^ s) _ hf
          rw [abs_of_neg h0] at hbig
          have hb : ((A + B : ℤ) : ℚ) * 2 ^ s < ((-2 ^ p : ℤ) : ℚ) * 2 ^ s :=
            mul_lt_mul_of_pos_right (Int.cast_lt.mpr (by linarith)) hs
          rw [hx] at hn ⊢
          rw [abs_of_neg (a := ((A + B : ℤ) : ℚ) * 2 ^ s - ((-2 ^ p : ℤ) : ℚ) * 2 ^ s) (by linarith)] at hn
          have h1 := (abs_le.mp hn).1
          push_cast at h1 ⊢
          exact le_trans (by linarith) (neg_le_abs _)
      rw [he] at hge ⊢
      have hepos : (0 : ℚ) < 2 ^ e := by positivity
      rw [abs_mul, abs_of_pos hepos] at hge
      have hmq : |(m : ℚ)| ≤ 2 ^ p := by exact_mod_cast hm
      have hse : s ≤ e := by
        by_contra hlt
        have h1 : (2 : ℚ) ^ e < 2 ^ s := zpow_lt_zpow_right₀ (by norm_num) (by omega)
        have h2 : |(m : ℚ)| * 2 ^ e ≤ 2 ^ p * 2 ^ e := mul_le_mul_of_nonneg_right hmq hepos.le
        have h3 : (2 : ℚ) ^ p * 2 ^ e < 2 ^ p * 2 ^ s := mul_lt_mul_of_pos_left h1 (by positivity)
        linarith
      obtain ⟨k, hk⟩ := Int.le.dest hse
      cases k with
      | zero =>
        have hes : e = s := by simpa using hk.symm
        subst hes
        have h2 : (2 : ℚ) ^ p ≤ |(m : ℚ)| := le_of_mul_le_mul_right hge hepos
        have h2' : (2 : ℤ) ^ p ≤ |m| := by exact_mod_cast h2
        have h3 : |m| = 2 ^ p := le_antisymm hm h2'
        rcases abs_choice m with h4 | h4
        · refine ⟨2 ^ (p - 1), ?_⟩
          have : m = 2 * 2 ^ (p - 1) := by rw [← hpow, ← h3, h4]
          rw [this]
        · refine ⟨-2 ^ (p - 1), ?_⟩
          have : m = 2 * -2 ^ (p - 1) := by rw [mul_neg, ← hpow, ← h3, h4, neg_neg]
          rw [this]
      | succ k =>
        refine ⟨m * 2 ^ k, ?_⟩
        rw [← hk, zpow_add₀ (by norm_num), zpow_natCast]
        push_cast
        ring
    obtain ⟨T, hT⟩ := hT
    -- comparison with other floats, in units
    have hcmp : ∀ F : ℤ, IsFloat p ((F : ℚ) * 2 ^ s) → |A + B - 2 * T| ≤ |A + B - F| := by
      intro F hF
      have hn := h.nearest ((A : ℚ) * 2 ^ s + B * 2 ^ s) _ hF
      rw [hT, hx, ← sub_mul, ← sub_mul, abs_mul, abs_mul] at hn
      have h1 := le_of_mul_le_mul_right hn (abs_pos.mpr hs.ne')
      exact_mod_cast h1
    have hr : |A + B - 2 * T| ≤ |B| := by
      have := hcmp A ha
      have e1 : A + B - A = B := by ring
      rwa [e1] at this
    have e1 : (A : ℚ) * 2 ^ s + B * 2 ^ s - fl ((A : ℚ) * 2 ^ s + B * 2 ^ s) =
        ((A + B - 2 * T : ℤ) : ℚ) * 2 ^ s := by rw [hT]; push_cast; ring
    have e2 : fl ((A : ℚ) * 2 ^ s + B * 2 ^ s) - (A : ℚ) * 2 ^ s = ((2 * T - A : ℤ) : ℚ) * 2 ^ s := by
      rw [hT]; push_cast; ring
    rw [e1, e2]
    refine ⟨isFloat_int_mul _ _ (le_trans hr hB), ?_⟩
    rcases hA with hA | ⟨k, rfl⟩
    · -- both operands on the same grid
      have hAB2 : |A + B| ≤ 2 * 2 ^ p := by
        have := abs_add_le A B
        linarith
      have hsmall : |A + B - 2 * T| ≤ 1 ∧ |B| < 2 ^ p := by
        by_contra hcon
        rcases Int.even_or_odd' (A + B) with ⟨c, hc | hc⟩
        · -- an even sum is representable
          apply hex
          rw [hx, hc]
          apply isFloat_even
          rw [hc, abs_mul] at hAB2
          have : |(2 : ℤ)| = 2 := rfl
          rw [this] at hAB2
          linarith
        · have hB' : |B| < 2 ^ p := by
            rcases lt_or_eq_of_le hB with h1 | h1
            · exact h1
            · exfalso
              have h2 : |A| = 2 ^ p := le_antisymm hA (by rw [← h1]; exact hAB)
              have : ∃ d, A + B = 2 * d := by
                rcases abs_choice A with ha' | ha' <;> rcases abs_choice B with hb' | hb' <;>
                  rw [ha'] at h2 <;> rw [hb'] at h1
                · exact ⟨2 ^ p, by linarith⟩
                · exact ⟨0, by linarith⟩
                · exact ⟨0, by linarith⟩
                · exact ⟨-2 ^ p, by linarith⟩
              obtain ⟨d, hd⟩ := this
              omega
          apply hcon
          refine ⟨?_, hB'⟩
          have hbound : |c + 1| ≤ 2 ^ p := by
            rw [abs_le] at hAB2 ⊢
            omega
          have := hcmp (2 * (c + 1)) (isFloat_even _ _ hbound)
          refine le_trans this ?_
          rw [hc]
          have : 2 * c + 1 - 2 * (c + 1) = -1 := by ring
          rw [this]
          norm_num
      apply isFloat_int_mul
      have h1 := abs_le.mp hsmall.1
      have h2 := abs_lt.mp hsmall.2
      rw [abs_le]
      omega
    · -- the larger operand is even
      have : (2 * T - 2 * k : ℤ) = 2 * (T - k) := by ring
      rw [this]
      apply isFloat_even
      have h1 := abs_le.mp hr
      have h2 := abs_le.mp (le_refl |B|)
      rw [abs_le]
      have h3 := abs_le.mp hB
      rcases abs_choice B with hb' | hb' <;> rw [hb'] at h1 <;> omega

/-- Exactness of the correction term: for floating point numbers with `|b| ≤ |a|` the
computed correction is the exact rounding error of `a + b`. -/
theorem two_sum (h : Nearest p fl) (hp : 1 ≤ p) {a b : ℚ} (ha : IsFloat p a) (hb : IsFloat p b)
    (hab : |b| ≤ |a|) : fl (fl (a - fl (a + b)) + b) = a + b - fl (a + b) := by
  have key : IsFloat p (a + b - fl (a + b)) ∧ IsFloat p (fl (a + b) - a) := by
    obtain ⟨ma, ea, hma, rfl⟩ := id ha
    obtain ⟨mb, eb, hmb, rfl⟩ := id hb
    rcases le_or_gt eb ea with hle | hlt
    · obtain ⟨k, hk⟩ := Int.le.dest hle
      have e1 : (ma : ℚ) * 2 ^ ea = ((ma * 2 ^ k : ℤ) : ℚ) * 2 ^ eb := by
        rw [← hk, zpow_add₀ (by norm_num), zpow_natCast]; push_cast; ring
      rw [e1] at hab ha ⊢
      refine two_sum_core h hp (ma * 2 ^ k) mb eb hmb ?_ ?_ ha
      · cases k with
        | zero => left; simpa using hma
        | succ k => right; exact ⟨ma * 2 ^ k, by rw [pow_succ]; ring⟩
      · have hs : (0 : ℚ) < 2 ^ eb := by positivity
        rw [abs_mul, abs_mul] at hab
        have := le_of_mul_le_mul_right hab (abs_pos.mpr hs.ne')
        exact_mod_cast this
    · obtain ⟨k, hk⟩ := Int.le.dest hlt.le
      have e1 : (mb : ℚ) * 2 ^ eb = ((mb * 2 ^ k : ℤ) : ℚ) * 2 ^ ea := by
        rw [← hk, zpow_add₀ (by norm_num), zpow_natCast]; push_cast; ring
      rw [e1] at hab hb ⊢
      have hs : (0 : ℚ) < 2 ^ ea := by positivity
      have hmm : |mb * 2 ^ k| ≤ |ma| := by
        rw [abs_mul, abs_mul] at hab
        have := le_of_mul_le_mul_right hab (abs_pos.mpr hs.ne')
        exact_mod_cast this
      exact two_sum_core h hp ma (mb * 2 ^ k) ea (le_trans hmm hma) (Or.inl hma) hmm ha
  have hneg : IsFloat p (a - fl (a + b)) := by
    obtain ⟨m, e, hm, he⟩ := key.2
    refine ⟨-m, e, by rwa [abs_neg], ?_⟩
    push_cast
    linarith
  rw [h.fix hneg]
  have : a - fl (a + b) + b = a + b - fl (a + b) := by ring
  rw [this, h.fix key.1]

/-- The correction computed by the code, whichever operand is larger. -/
def correction (fl : ℚ → ℚ) (a b : ℚ) : ℚ :=
  if |a| ≥ |b| then fl (fl (a - fl (a + b)) + b) else fl (fl (b - fl (a + b)) + a)

theorem correction_eq (h : Nearest p fl) (hp : 1 ≤ p) {a b : ℚ} (ha : IsFloat p a) (hb : IsFloat p b) :
    correction fl a b = a + b - fl (a + b) := by
  unfold correction
  by_cases hab : |a| ≥ |b|
  · rw [if_pos hab]; exact two_sum h hp ha hb hab
  · rw [if_neg hab]
    have := two_sum h hp hb ha (le_of_lt (not_le.mp hab))
    rw [add_comm b a] at this
    exact this

theorem correction_float (h : Nearest p fl) (a b : ℚ) : IsFloat p (correction fl a b) := by
  unfold correction; split <;> exact h.float _

/-! ### Accumulation -/

/-- Plain recursive summation. -/
def plain (fl : ℚ → ℚ) (l : List ℚ) (z : ℚ) : ℚ := l.foldl (fun s x => fl (s + x)) z

/-- The errors made by plain recursive summation. -/
def errors (fl : ℚ → ℚ) : ℚ → List ℚ → List ℚ
  | _, [] => []
  | s, x :: l => (s + x - fl (s + x)) :: errors fl (fl (s + x)) l

theorem errors_length (l : List ℚ) (s : ℚ) : (errors fl s l).length = l.length := by
  induction l generalizing s with
  | nil => rfl
  | cons x l ih => simp [errors, ih]

theorem errors_sum (l : List ℚ) (s : ℚ) : plain fl l s + (errors fl s l).sum = s + l.sum := by
  induction l generalizing s with
  | nil => simp [plain, errors]
  | cons x l ih =>
    have := ih (fl (s + x))
    simp only [plain, List.foldl_cons, errors, List.sum_cons] at this ⊢
    linarith

def mass (l : List ℚ) : ℚ := (l.map abs).sum

theorem mass_nonneg (l : List ℚ) : 0 ≤ mass l := by
  induction l with
  | nil => simp [mass]
  | cons x l ih => simp only [mass, List.map_cons, List.sum_cons] at *; have := abs_nonneg x; linarith

theorem abs_sum_le (l : List ℚ) : |l.sum| ≤ mass l := by
  induction l with
  | nil => simp [mass]
  | cons x l ih =>
    simp only [mass, List.map_cons, List.sum_cons] at *
    exact le_trans (abs_add_le _ _) (by linarith)

/-- Total size of the errors. -/
theorem errors_mass (u : ℚ) (hu : 0 ≤ u) (hrel : ∀ x, |fl x - x| ≤ u * |x|) (l : List ℚ) (s : ℚ) :
    mass (errors fl s l) ≤ l.length * u * (1 + u) ^ l.length * (|s| + mass l) := by
  induction l generalizing s with
  | nil => simp [errors, mass]
  | cons x l ih =>
    have ih' := ih (fl (s + x))
    have h1 : mass (errors fl s (x :: l)) = |s + x - fl (s + x)| + mass (errors fl (fl (s + x)) l) := by
      simp [errors, mass]
    have h2 : mass (x :: l) = |x| + mass l := by simp [mass]
    rw [h1, h2]
    have h3 : |s + x - fl (s + x)| ≤ u * (|s| + |x|) := by
      rw [abs_sub_comm]
      exact le_trans (hrel _) (mul_le_mul_of_nonneg_left (abs_add_le _ _) hu)
    have h4 : |fl (s + x)| ≤ (1 + u) * (|s| + |x|) := by
      have h5 : |fl (s + x)| ≤ |fl (s + x) - (s + x)| + |s + x| := by
        have := abs_add_le (fl (s + x) - (s + x)) (s + x)
        rwa [sub_add_cancel] at this
      have h6 := abs_add_le s x
      have h7 := le_trans (hrel (s + x)) (mul_le_mul_of_nonneg_left h6 hu)
      linarith
    have hm := mass_nonneg l
    have h8 : |fl (s + x)| + mass l ≤ (1 + u) * (|s| + (|x| + mass l)) := by nlinarith
    have hpow : (1 : ℚ) ≤ (1 + u) ^ l.length := one_le_pow₀ (by linarith)
    have hS : 0 ≤ |s| + (|x| + mass l) := by have := abs_nonneg s; have := abs_nonneg x; linarith
    calc |s + x - fl (s + x)| + mass (errors fl (fl (s + x)) l)
        ≤ u * (|s| + |x|) + l.length * u * (1 + u) ^ l.length * (|fl (s + x)| + mass l) := by linarith
      _ ≤ u * ((1 + u) ^ (l.length + 1) * (|s| + (|x| + mass l))) +
          l.length * u * (1 + u) ^ l.length * ((1 + u) * (|s| + (|x| + mass l))) := by
          have hpow' : (1 : ℚ) ≤ (1 + u) ^ (l.length + 1) := one_le_pow₀ (by linarith)
          have g1 : |s| + |x| ≤ (1 + u) ^ (l.length + 1) * (|s| + (|x| + mass l)) := by
            have : |s| + (|x| + mass l) ≤ (1 + u) ^ (l.length + 1) * (|s| + (|x| + mass l)) :=
              le_mul_of_one_le_left hS hpow'
            linarith
          have g2 : (l.length : ℚ) * u * (1 + u) ^ l.length * (|fl (s + x)| + mass l) ≤
              l.length * u * (1 + u) ^ l.length * ((1 + u) * (|s| + (|x| + mass l))) :=
            mul_le_mul_of_nonneg_left h8 (by positivity)
          have g3 := mul_le_mul_of_nonneg_left g1 hu
          linarith
      _ = ((x :: l).length : ℚ) * u * (1 + u) ^ (x :: l).length * (|s| + (|x| + mass l)) := by
          simp only [List.length_cons]; push_cast; ring

/-- Error of plain recursive summation. -/
theorem plain_error (u : ℚ) (hu : 0 ≤ u) (hrel : ∀ x, |fl x - x| ≤ u * |x|) (l : List ℚ) :
    |plain fl l 0 - l.sum| ≤ ((1 + u) ^ l.length - 1) * mass l := by
  induction l using List.reverseRecOn with
  | nil => simp [plain]
  | append_singleton l x ih =>
    have h1 : plain fl (l ++ [x]) 0 = fl (plain fl l 0 + x) := by simp [plain]
    have h2 : mass (l ++ [x]) = mass l + |x| := by simp [mass]
    have h3 : (l ++ [x]).sum = l.sum + x := by simp
    rw [h1, h2, h3, List.length_append, List.length_singleton]
    have h4 := hrel (plain fl l 0 + x)
    have h5 : |plain fl l 0 + x| ≤ |plain fl l 0 - l.sum| + (mass l + |x|) := by
      have e : plain fl l 0 + x = (plain fl l 0 - l.sum) + (l.sum + x) := by ring
      rw [e]
      refine le_trans (abs_add_le _ _) ?_
      have := abs_add_le l.sum x
      have := abs_sum_le l
      linarith
    have h6 : |fl (plain fl l 0 + x) - (l.sum + x)| ≤
        |fl (plain fl l 0 + x) - (plain fl l 0 + x)| + |plain fl l 0 - l.sum| := by
      have e : fl (plain fl l 0 + x) - (l.sum + x) =
        (fl (plain fl l 0 + x) - (plain fl l 0 + x)) + (plain fl l 0 - l.sum) := by ring
      rw [e]
      exact abs_add_le _ _
    have hm := mass_nonneg l
    have hx := abs_nonneg x
    have hpow : (1 : ℚ) ≤ (1 + u) ^ l.length := one_le_pow₀ (by linarith)
    have h7 := mul_le_mul_of_nonneg_left h5 hu
    have h8 := mul_le_mul_of_nonneg_left ih (show 0 ≤ 1 + u by linarith)
    have h9 : 0 ≤ ((1 + u) ^ l.length - 1) * (1 + u) * |x| :=
      mul_nonneg (mul_nonneg (by linarith) (by linarith)) hx
    rw [pow_succ]
    nlinarith

theorem mass_bound_mono (n : Nat) (u : ℚ) (hu : 0 ≤ u) : 0 ≤ (1 + u) ^ n - 1 := by
  have : (1 : ℚ) ≤ (1 + u) ^ n := one_le_pow₀ (by linarith)
  linarith

/-! ### The two compensated sums in terms of plain sums and errors -/

theorem plain_float (h : Nearest p fl) (l : List ℚ) (z : ℚ) (hz : IsFloat p z) :
    IsFloat p (plain fl l z) := by
  induction l generalizing z with
  | nil => exact hz
  | cons x l ih => exact ih _ (h.float _)

theorem errors_float (h : Nearest p fl) (hp : 1 ≤ p) (l : List ℚ) (hl : ∀ x ∈ l, IsFloat p x) (s : ℚ)
    (hs : IsFloat p s) : ∀ e ∈ errors fl s l, IsFloat p e := by
  induction l generalizing s with
  | nil => simp [errors]
  | cons x l ih =>
    intro e he
    rcases List.mem_cons.mp he with rfl | he
    · rw [← correction_eq h hp hs (hl x (by simp))]
      exact correction_float h _ _
    · exact ih (fun y hy => hl y (by simp [hy])) _ (h.float _) e he

theorem kahan_state (h : Nearest p fl) (hp : 1 ≤ p) (l : List ℚ) (hl : ∀ x ∈ l, IsFloat p x) (s : KState)
    (hs : IsFloat p s.sum) :
    l.foldl (KState.add fl) s = ⟨plain fl l s.sum, plain fl (errors fl s.sum l) s.cor⟩ := by
  induction l generalizing s with
  | nil => rfl
  | cons x l ih =>
    rw [List.foldl_cons, ih (fun y hy => hl y (by simp [hy])) _ (h.float _)]
    have hc : (KState.add fl s x).cor = fl (s.cor + (s.sum + x - fl (s.sum + x))) := by
      rw [← correction_eq h hp hs (hl x (by simp))]
      rfl
    have hsum : (KState.add fl s x).sum = fl (s.sum + x) := rfl
    rw [hc, hsum]
    rfl

theorem kbk_state (h : Nearest p fl) (hp : 1 ≤ p) (l : List ℚ) (hl : ∀ x ∈ l, IsFloat p x) (s : KBKState)
    (hs : IsFloat p s.sum) (hcs : IsFloat p s.cs) :
    l.foldl (KBKState.step fl) s = ⟨plain fl l s.sum, plain fl (errors fl s.sum l) s.cs,
      plain fl (errors fl s.cs (errors fl s.sum l)) s.ccs⟩ := by
  induction l generalizing s with
  | nil => rfl
  | cons x l ih =>
    rw [List.foldl_cons, ih (fun y hy => hl y (by simp [hy])) _ (h.float _) (h.float _)]
    have hx := hl x (by simp)
    have hsum : (KBKState.step fl s x).sum = fl (s.sum + x) := rfl
    have hcs' : (KBKState.step fl s x).cs = fl (s.cs + (s.sum + x - fl (s.sum + x))) := by
      rw [← correction_eq h hp hs hx]; rfl
    have hccs : (KBKState.step fl s x).ccs = fl (s.ccs + (s.cs + (s.sum + x - fl (s.sum + x)) -
        fl (s.cs + (s.sum + x - fl (s.sum + x))))) := by
      rw [← correction_eq h hp hs hx, ← correction_eq h hp hcs (correction_float h _ _)]
      rfl
    rw [hsum, hcs', hccs]
    rfl

end AmpGen.Kahan
