import Verif.Kahan.LemmasSum
/-
C34: compensated summation.
-/
namespace AmpGen.Kahan

/-- In exact arithmetic every accumulator returns the sum of what was added, whether by
`+=`, by `+` or by the second order algorithm. -/
theorem kahan_exact (l : List ℚ) :
    (l.foldl (KState.add id) KState.empty).value id = l.sum ∧
    (l.foldl (KState.plus id) KState.empty).value id = l.sum ∧ kbkSum id l = l.sum := by
  have h1 : ∀ (l : List ℚ) (s : KState), s.cor = 0 → l.foldl (KState.add id) s = ⟨s.sum + l.sum, 0⟩ := by
    intro l
    induction l with
    | nil => intro s hs; cases s; simp_all
    | cons x l ih =>
      intro s hs
      rw [List.foldl_cons, ih _ (by simp [KState.add, hs])]
      simp [KState.add, add_assoc]
  have h2 : ∀ (l : List ℚ) (s : KState), s.cor = 0 → l.foldl (KState.plus id) s = ⟨s.sum + l.sum, 0⟩ := by
    intro l
    induction l with
    | nil => intro s hs; cases s; simp_all
    | cons x l ih =>
      intro s hs
      rw [List.foldl_cons, ih _ (by simp [KState.plus, hs])]
      simp [KState.plus, hs, add_assoc]
  have h3 : ∀ (l : List ℚ) (s : KBKState), s.cs = 0 → s.ccs = 0 →
      l.foldl (KBKState.step id) s = ⟨s.sum + l.sum, 0, 0⟩ := by
    intro l
    induction l with
    | nil => intro s hs hs'; cases s; simp_all
    | cons x l ih =>
      intro s hs hs'
      rw [List.foldl_cons, ih _ (by simp [KBKState.step, hs]) (by simp [KBKState.step, hs, hs'])]
      simp [KBKState.step, add_assoc]
  refine ⟨?_, ?_, ?_⟩
  · rw [h1 l _ rfl]; simp [KState.value, KState.empty]
  · rw [h2 l _ rfl]; simp [KState.value, KState.empty]
  · unfold kbkSum; rw [h3 l _ rfl rfl]; simp

/-- In binary floating point with `p` significant bits, rounding to nearest and no
overflow or underflow, the value read from the accumulator after adding any list of
numbers with `+=` differs from the exact sum by one rounding of the result plus a term of
second order in `u = 2 ^ -p`. -/
theorem kahan_error_bound_partial (p : Nat) (hp : 1 ≤ p) (fl : ℚ → ℚ) (h : Nearest p fl) (l : List ℚ)
    (hl : ∀ x ∈ l, IsFloat p x) (u : ℚ) (hu : u = 1 / 2 ^ p) :
    |(l.foldl (KState.add fl) KState.empty).value fl - l.sum| ≤
      u * |l.sum| + (1 + u) * (((1 + u) ^ l.length - 1) *
        (l.length * u * (1 + u) ^ l.length * (l.map abs).sum)) := by
  have hu0 : 0 ≤ u := by rw [hu]; positivity
  have hrel : ∀ x, |fl x - x| ≤ u * |x| := by
    intro x
    have := h.rel x
    rw [hu]
    calc |fl x - x| ≤ |x| / 2 ^ p := this
      _ = 1 / 2 ^ p * |x| := by ring
  rw [kahan_state h hp l hl _ isFloat_zero]
  simp only [KState.empty, KState.value]
  set S := plain fl l 0 with hS
  set C := plain fl (errors fl 0 l) 0 with hC
  have e1 : S + (errors fl 0 l).sum = l.sum := by
    have := errors_sum (fl := fl) l 0
    rw [zero_add] at this
    exact this
  have e2 := plain_error u hu0 hrel (errors fl 0 l)
  rw [errors_length] at e2
  have e3 := errors_mass u hu0 hrel l 0
  rw [abs_zero, zero_add] at e3
  have e4 : |C - (errors fl 0 l).sum| ≤ ((1 + u) ^ l.length - 1) *
      (l.length * u * (1 + u) ^ l.length * (l.map abs).sum) :=
    le_trans e2 (mul_le_mul_of_nonneg_left e3 (mass_bound_mono _ _ hu0))
  set D := ((1 + u) ^ l.length - 1) * (l.length * u * (1 + u) ^ l.length * (l.map abs).sum) with hD
  have e5 : |fl (S + C) - (S + C)| ≤ u * |S + C| := hrel _
  have e6 : S + C - l.sum = C - (errors fl 0 l).sum := by rw [← e1]; ring
  have e7 : |S + C| ≤ |l.sum| + D := by
    have : S + C = l.sum + (C - (errors fl 0 l).sum) := by rw [← e1]; ring
    rw [this]
    exact le_trans (abs_add_le _ _) (by linarith)
  have e8 : |fl (S + C) - l.sum| ≤ |fl (S + C) - (S + C)| + |S + C - l.sum| := by
    have : fl (S + C) - l.sum = (fl (S + C) - (S + C)) + (S + C - l.sum) := by ring
    rw [this]; exact abs_add_le _ _
  rw [e6] at e8
  have e9 := mul_le_mul_of_nonneg_left e7 hu0
  linarith

/-- The same for the second order algorithm: beyond two roundings of the result the error
is of third order. -/
theorem kbk_error_bound_partial (p : Nat) (hp : 1 ≤ p) (fl : ℚ → ℚ) (h : Nearest p fl) (l : List ℚ)
    (hl : ∀ x ∈ l, IsFloat p x) (u K : ℚ) (hu : u = 1 / 2 ^ p) (hK : K = l.length * u * (1 + u) ^ l.length) :
    |kbkSum fl l - l.sum| ≤ u * |l.sum| + (1 + u) * (u * (|l.sum| + K ^ 2 * (l.map abs).sum) +
      ((1 + u) ^ l.length - 1) * (K ^ 2 * (l.map abs).sum)) := by
  have hu0 : 0 ≤ u := by rw [hu]; positivity
  have hK0 : 0 ≤ K := by rw [hK]; positivity
  have hrel : ∀ x, |fl x - x| ≤ u * |x| := by
    intro x
    have := h.rel x
    rw [hu]
    calc |fl x - x| ≤ |x| / 2 ^ p := this
      _ = 1 / 2 ^ p * |x| := by ring
  unfold kbkSum
  rw [kbk_state h hp l hl _ isFloat_zero isFloat_zero]
  simp only
  set E := errors fl 0 l with hE
  set S := plain fl l 0
  set C := plain fl E 0
  set CC := plain fl (errors fl 0 E) 0
  have hlenE : E.length = l.length := errors_length l 0
  have e1 : S + E.sum = l.sum := by
    have := errors_sum (fl := fl) l 0
    rw [zero_add] at this
    exact this
  have e2 : C + (errors fl 0 E).sum = E.sum := by
    have := errors_sum (fl := fl) E 0
    rw [zero_add] at this
    exact this
  have m1 : mass E ≤ K * (l.map abs).sum := by
    have := errors_mass u hu0 hrel l 0
    rw [abs_zero, zero_add, ← hK] at this
    exact this
  have m2 : mass (errors fl 0 E) ≤ K ^ 2 * (l.map abs).sum := by
    have := errors_mass u hu0 hrel E 0
    rw [abs_zero, zero_add, hlenE, ← hK] at this
    have h2 := mul_le_mul_of_nonneg_left m1 hK0
    calc mass (errors fl 0 E) ≤ K * mass E := this
      _ ≤ K * (K * (l.map abs).sum) := h2
      _ = K ^ 2 * (l.map abs).sum := by ring
  have e3 : |CC - (errors fl 0 E).sum| ≤ ((1 + u) ^ l.length - 1) * (K ^ 2 * (l.map abs).sum) := by
    have := plain_error u hu0 hrel (errors fl 0 E)
    rw [errors_length, hlenE] at this
    exact le_trans this (mul_le_mul_of_nonneg_left m2 (mass_bound_mono _ _ hu0))
  set M := K ^ 2 * (l.map abs).sum
  set D := ((1 + u) ^ l.length - 1) * M
  have e4 : |S + C| ≤ |l.sum| + M := by
    have : S + C = l.sum - (errors fl 0 E).sum := by rw [← e1, ← e2]; ring
    rw [this]
    have h1 := abs_sub l.sum (errors fl 0 E).sum
    have h2 := abs_sum_le (errors fl 0 E)
    linarith
  have e5 : |fl (S + C) - (S + C)| ≤ u * (|l.sum| + M) :=
    le_trans (hrel _) (mul_le_mul_of_nonneg_left e4 hu0)
  set w := fl (S + C)
  have e6 : |w + CC - l.sum| ≤ u * (|l.sum| + M) + D := by
    have : w + CC - l.sum = (w - (S + C)) + (CC - (errors fl 0 E).sum) := by rw [← e1, ← e2]; ring
    rw [this]
    exact le_trans (abs_add_le _ _) (by linarith)
  have e7 : |w + CC| ≤ |l.sum| + |w + CC - l.sum| := by
    have : w + CC = l.sum + (w + CC - l.sum) := by ring
    have h2 := abs_add_le l.sum (w + CC - l.sum)
    rwa [← this] at h2
  have e8 : |fl (w + CC) - l.sum| ≤ |fl (w + CC) - (w + CC)| + |w + CC - l.sum| := by
    have : fl (w + CC) - l.sum = (fl (w + CC) - (w + CC)) + (w + CC - l.sum) := by ring
    rw [this]; exact abs_add_le _ _
  have e9 := hrel (w + CC)
  have e10 := mul_le_mul_of_nonneg_left e7 hu0
  have e11 := mul_le_mul_of_nonneg_left e6 hu0
  linarith

/-- The hypotheses are met: rounding to 53 bits, and a list containing both large and
small numbers. -/
example : ∃ fl, Nearest 53 fl ∧ ∀ x ∈ [(2 : ℚ) ^ 60, 1, -(2 ^ 60)], IsFloat 53 x := by
  refine ⟨rn 53, rn_nearest (by norm_num), ?_⟩
  intro x hx
  simp only [List.mem_cons, List.not_mem_nil, or_false] at hx
  rcases hx with rfl | rfl | rfl
  · exact ⟨1, 60, by norm_num, by norm_num⟩
  · exact ⟨1, 0, by norm_num, by norm_num⟩
  · exact ⟨-1, 60, by norm_num, by norm_num⟩

/-- The correction term is the exact rounding error of each addition, so the pair
(sum, correction) loses nothing on the first two additions. -/
theorem correction_exact (p : Nat) (hp : 1 ≤ p) (fl : ℚ → ℚ) (h : Nearest p fl) (a b : ℚ)
    (ha : IsFloat p a) (hb : IsFloat p b) :
    ((KState.empty.add fl a).add fl b).sum + ((KState.empty.add fl a).add fl b).cor = a + b := by
  have hs := kahan_state h hp [a, b] (by simp [ha, hb]) KState.empty isFloat_zero
  simp only [List.foldl_cons, List.foldl_nil] at hs
  rw [hs]
  simp only [KState.empty, plain, errors, List.foldl_cons, List.foldl_nil, zero_add, sub_self]
  rw [h.fix ha, sub_self, h.zero, zero_add]
  have := correction_float h a b
  rw [correction_eq h hp ha hb] at this
  rw [h.fix this]
  ring

/-- The free `operator+` takes the correction with the opposite sign: applied to an
accumulator built with `+=` it subtracts the correction instead of adding it.  With
`a = 2 ^ (p+1)`, adding `a`, `1` with `+=` and then `1` with `+` leaves `a` in the
accumulator, two short of the exact sum, for every precision and rounding to nearest. -/
theorem kahan_plus_counterexample (p : Nat) (hp : 1 ≤ p) (fl : ℚ → ℚ) (h : Nearest p fl) :
    let a : ℚ := 2 ^ (p + 1)
    let s := (KState.empty.add fl a).add fl 1
    s.sum + s.cor = a + 1 ∧ (s.plus fl 1).sum + (s.plus fl 1).cor = a := by
  intro a s
  have ha : IsFloat p a := ⟨1, p + 1, by simpa using one_le_pow₀ (show (1 : ℤ) ≤ 2 by norm_num), by
    simp only [a]
    rw [Int.cast_one, one_mul, ← zpow_natCast]
    norm_num⟩
  have h1 : IsFloat p 1 := ⟨1, 0, by simpa using one_le_pow₀ (show (1 : ℤ) ≤ 2 by norm_num), by norm_num⟩
  have hexact := correction_exact p hp fl h a 1 ha h1
  refine ⟨hexact, ?_⟩
  have hround : fl (a + 1) = a := by
    have hn := h.nearest (a + 1) a ha
    have e0 : a + 1 - a = 1 := by ring
    rw [e0, abs_one] at hn
    obtain ⟨m, e, hm, he⟩ := h.float (a + 1)
    rw [he] at hn ⊢
    have hb := abs_le.mp hn
    have hepos : (0 : ℚ) < 2 ^ e := by positivity
    have hmq : |(m : ℚ)| ≤ 2 ^ p := by exact_mod_cast hm
    have hge : (2 : ℚ) ^ (p + 1) ≤ m * 2 ^ e := by simp only [a] at hb; linarith [hb.2]
    have hle : (m : ℚ) * 2 ^ e ≤ 2 ^ (p + 1) + 2 := by simp only [a] at hb; linarith [hb.1]
    have hme : (m : ℚ) * 2 ^ e ≤ 2 ^ p * 2 ^ e :=
      mul_le_mul_of_nonneg_right (le_trans (le_abs_self _) hmq) hepos.le
    have he1 : 1 ≤ e := by
      by_contra hlt
      have h2 : (2 : ℚ) ^ e ≤ 2 ^ (0 : ℤ) := zpow_le_zpow_right₀ (by norm_num) (by omega)
      rw [zpow_zero] at h2
      have h3 : (2 : ℚ) ^ p * 2 ^ e ≤ 2 ^ p := by
        have := mul_le_mul_of_nonneg_left h2 (show (0 : ℚ) ≤ 2 ^ p by positivity)
        linarith
      have h4 : (0 : ℚ) < 2 ^ p := by positivity
      rw [pow_succ] at hge
      linarith
    obtain ⟨k, hk⟩ := Int.le.dest he1
    have hz : (m : ℚ) * 2 ^ e = ((m * 2 ^ k * 2 : ℤ) : ℚ) := by
      rw [← hk, zpow_add₀ (by norm_num), zpow_natCast]; push_cast; ring
    rw [hz] at hge hle ⊢
    have hge' : (2 : ℤ) ^ (p + 1) ≤ m * 2 ^ k * 2 := by exact_mod_cast hge
    have hle' : m * 2 ^ k * 2 ≤ (2 : ℤ) ^ (p + 1) + 2 := by exact_mod_cast hle
    have : m * 2 ^ k * 2 = (2 : ℤ) ^ (p + 1) := by
      rw [pow_succ] at hge' hle' ⊢
      cases k with
      | zero =>
        have h5 : m ≤ 2 ^ p := le_trans (le_abs_self m) hm
        simp only [pow_zero, mul_one] at *
        linarith
      | succ k =>
        obtain ⟨q, rfl⟩ := Nat.exists_eq_add_of_le' hp
        rw [pow_succ] at *
        rw [pow_succ] at hge' hle' ⊢
        generalize m * 2 ^ k = z at *
        have e2 : m * (2 ^ k * 2) = m * 2 ^ k * 2 := by ring
        generalize (2 : ℤ) ^ q = w at *
        rw [e2] at hge' hle' ⊢
        generalize m * 2 ^ k = z at *
        omega
    rw [this]
    simp only [a]
    push_cast
    rfl
  have hs := kahan_state h hp [a, 1] (by simp [ha, h1]) KState.empty isFloat_zero
  simp only [List.foldl_cons, List.foldl_nil] at hs
  have hs' : s = ⟨a, 1⟩ := by
    show (KState.empty.add fl a).add fl 1 = _
    rw [hs]
    simp only [KState.empty, plain, errors, List.foldl_cons, List.foldl_nil, zero_add]
    rw [h.fix ha, sub_self, h.zero, zero_add, hround]
    have : a + 1 - a = 1 := by ring
    rw [this, h.fix h1]
  rw [hs']
  simp only [KState.plus, sub_self, h.zero, add_zero]
  rw [h.fix ha, sub_self, h.zero, sub_zero, h.zero, add_zero]

end AmpGen.Kahan
