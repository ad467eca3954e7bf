import Verif.DecayChain.Model
import Mathlib.Tactic.Linarith
import Mathlib.Tactic.FieldSimp
import Mathlib.Tactic.LinearCombination
import Mathlib.Tactic.Positivity
import Mathlib.Analysis.SpecialFunctions.Integrals.Basic
import Mathlib.Analysis.SpecialFunctions.Trigonometric.ArctanDeriv
/-
The distribution of one node and the phase-space factor.
-/
namespace AmpGen.DecayChain

open Classical

/-- What the constructor guarantees of one node. -/
def Node.Ok (n : Node) : Prop :=
  n.lo ≤ n.hi ∧ (n.kind = .bw → 0 < n.m * n.w ∧ n.phi1 = Real.arctan ((n.lo - n.m * n.m) / (n.m * n.w)) ∧
    n.phi2 = Real.arctan ((n.hi - n.m * n.m) / (n.m * n.w))) ∧ n.kind ≠ .stable ∧ (n.kind = .quasi → n.hi = n.lo)

theorem draw_bw {n : Node} (h : n.Ok) (hk : n.kind = .bw) {u : ℝ} (h0 : 0 ≤ u) (h1 : u ≤ 1)
    (hc : Real.cos ((n.phi2 - n.phi1) * u) ≠ 0) :
    n.draw u = n.m * n.m + (n.m * n.w) * Real.tan (n.phi1 + (n.phi2 - n.phi1) * u) := by
  obtain ⟨hle, hb, _, _⟩ := h
  obtain ⟨hmG, e1, e2⟩ := hb hk
  unfold Node.draw
  simp only [hk]
  have hmono : n.phi1 ≤ n.phi2 := by
    rw [e1, e2]
    apply Real.arctan_mono
    exact div_le_div_of_nonneg_right (by linarith) hmG.le
  have r1 : -(Real.pi / 2) < n.phi1 := by rw [e1]; exact Real.neg_pi_div_two_lt_arctan _
  have r2 : n.phi2 < Real.pi / 2 := by rw [e2]; exact Real.arctan_lt_pi_div_two _
  have hc1 : 0 < Real.cos n.phi1 := Real.cos_pos_of_mem_Ioo ⟨r1, by linarith⟩
  have hd : (n.phi2 - n.phi1) * u ≤ n.phi2 - n.phi1 := by nlinarith
  have hd0 : 0 ≤ (n.phi2 - n.phi1) * u := by nlinarith
  have hcs : 0 < Real.cos (n.phi1 + (n.phi2 - n.phi1) * u) := Real.cos_pos_of_mem_Ioo ⟨by linarith, by linarith⟩
  have hL : n.lo - n.m * n.m = (n.m * n.w) * Real.tan n.phi1 := by
    rw [e1, Real.tan_arctan, mul_div_cancel₀ _ hmG.ne']
  generalize (n.phi2 - n.phi1) * u = d at *
  generalize n.phi1 = p at *
  generalize n.m * n.w = G at *
  have : G * Real.tan d + n.lo - n.m * n.m = G * Real.tan d + G * Real.tan p := by linarith
  rw [this, hL]
  congr 1
  rw [Real.tan_eq_sin_div_cos, Real.tan_eq_sin_div_cos, Real.tan_eq_sin_div_cos]
  rw [Real.sin_add, Real.cos_add]
  rw [Real.cos_add] at hcs
  have hx : Real.cos d * Real.cos p - Real.sin d * Real.sin p ≠ 0 := by
    intro hh; apply hcs.ne'; linarith
  have e3 : G - Real.sin d / Real.cos d * (G * (Real.sin p / Real.cos p)) =
      G * (Real.cos d * Real.cos p - Real.sin d * Real.sin p) / (Real.cos d * Real.cos p) := by
    field_simp
  rw [e3]
  have : Real.cos p * Real.cos d - Real.sin p * Real.sin d ≠ 0 := hcs.ne'
  field_simp
  ring

theorem angle_mem {n : Node} (h : n.Ok) (hk : n.kind = .bw) {u : ℝ} (h0 : 0 ≤ u) (h1 : u ≤ 1) :
    -(Real.pi / 2) < n.phi1 ∧ n.phi1 ≤ n.phi1 + (n.phi2 - n.phi1) * u ∧
    n.phi1 + (n.phi2 - n.phi1) * u ≤ n.phi2 ∧ n.phi2 < Real.pi / 2 := by
  obtain ⟨hle, hb, _, _⟩ := h
  obtain ⟨hmG, e1, e2⟩ := hb hk
  have hmono : n.phi1 ≤ n.phi2 := by
    rw [e1, e2]
    apply Real.arctan_mono
    exact div_le_div_of_nonneg_right (by linarith) hmG.le
  have r1 : -(Real.pi / 2) < n.phi1 := by rw [e1]; exact Real.neg_pi_div_two_lt_arctan _
  have r2 : n.phi2 < Real.pi / 2 := by rw [e2]; exact Real.arctan_lt_pi_div_two _
  exact ⟨r1, by nlinarith, by nlinarith, r2⟩

theorem tan_mono' {a b : ℝ} (ha : -(Real.pi / 2) < a) (hb : b < Real.pi / 2) (h : a ≤ b) : Real.tan a ≤ Real.tan b := by
  rcases h.lt_or_eq with h | h
  · exact (Real.tan_lt_tan_of_lt_of_lt_pi_div_two ha hb h).le
  · rw [h]

/-- Every value drawn lies in the node's range. -/
theorem draw_range {n : Node} (h : n.Ok) {u : ℝ} (h0 : 0 ≤ u) (h1 : u ≤ 1) : n.lo ≤ n.draw u ∧ n.draw u ≤ n.hi := by
  cases hk : n.kind with
  | stable => exact absurd hk h.2.2.1
  | quasi =>
    unfold Node.draw
    simp only [hk]
    exact ⟨le_rfl, h.1⟩
  | flat =>
    unfold Node.draw
    simp only [hk]
    have := h.1
    constructor <;> nlinarith
  | bw =>
    by_cases hc : Real.cos ((n.phi2 - n.phi1) * u) = 0
    · unfold Node.draw
      simp only [hk]
      have hy : Real.tan ((n.phi2 - n.phi1) * u) = 0 := by rw [Real.tan_eq_sin_div_cos, hc, div_zero]
      obtain ⟨hle, hb, _⟩ := h
      obtain ⟨hmG, _⟩ := hb hk
      have : n.m * n.m + n.m * n.w * (n.m * n.w * 0 + n.lo - n.m * n.m) / (n.m * n.w - 0 * (n.lo - n.m * n.m)) = n.lo := by
        rw [zero_mul, sub_zero, mul_div_assoc, mul_div_cancel₀ _ hmG.ne']; ring
      rw [hy, this]
      exact ⟨le_rfl, hle⟩
    · rw [draw_bw h hk h0 h1 hc]
      obtain ⟨a1, a2, a3, a4⟩ := angle_mem h hk h0 h1
      obtain ⟨hle, hb, _⟩ := h
      obtain ⟨hmG, e1, e2⟩ := hb hk
      have t1 := tan_mono' a1 (lt_of_le_of_lt a3 a4) a2
      have t2 := tan_mono' (lt_of_lt_of_le a1 a2) a4 a3
      have f1 : n.m * n.w * Real.tan n.phi1 = n.lo - n.m * n.m := by
        rw [e1, Real.tan_arctan, mul_div_cancel₀ _ hmG.ne']
      have f2 : n.m * n.w * Real.tan n.phi2 = n.hi - n.m * n.m := by
        rw [e2, Real.tan_arctan, mul_div_cancel₀ _ hmG.ne']
      constructor <;> nlinarith

/-- Of two numbers drawn the larger gives the larger value. -/
theorem draw_mono {n : Node} (h : n.Ok) {u u' : ℝ} (h0 : 0 ≤ u) (hu : u ≤ u') (h1 : u' ≤ 1)
    (hc : Real.cos ((n.phi2 - n.phi1) * u) ≠ 0) (hc' : Real.cos ((n.phi2 - n.phi1) * u') ≠ 0) :
    n.draw u ≤ n.draw u' := by
  cases hk : n.kind with
  | stable => exact absurd hk h.2.2.1
  | quasi =>
    unfold Node.draw
    simp only [hk]
    exact le_rfl
  | flat =>
    unfold Node.draw
    simp only [hk]
    have := h.1
    nlinarith
  | bw =>
    rw [draw_bw h hk h0 (hu.trans h1) hc, draw_bw h hk (h0.trans hu) h1 hc']
    obtain ⟨a1, a2, a3, a4⟩ := angle_mem h hk h0 (hu.trans h1)
    obtain ⟨b1, b2, b3, b4⟩ := angle_mem h hk (h0.trans hu) h1
    have hφ : n.phi1 ≤ n.phi2 := by linarith
    have t := tan_mono' (a := n.phi1 + (n.phi2 - n.phi1) * u) (b := n.phi1 + (n.phi2 - n.phi1) * u') (by linarith) (by linarith) (by nlinarith)
    obtain ⟨hle, hb, _⟩ := h
    obtain ⟨hmG, e1, e2⟩ := hb hk
    nlinarith

theorem pdf_integral_bw {n : Node} (h : n.Ok) (hk : n.kind = .bw) (hlt : n.lo < n.hi) (x : ℝ) :
    ∫ s in n.lo..x, n.pdf s =
      (Real.arctan ((x - n.m * n.m) / (n.m * n.w)) - n.phi1) / (n.phi2 - n.phi1) := by
  obtain ⟨hle, hb, _⟩ := h
  obtain ⟨hmG, e1, e2⟩ := hb hk
  have hφ : n.phi1 < n.phi2 := by
    rw [e1, e2]
    apply Real.arctan_strictMono
    exact div_lt_div_of_pos_right (by linarith) hmG
  have hd : n.phi2 - n.phi1 ≠ 0 := by linarith
  have hden : ∀ s : ℝ, 0 < (s - n.m * n.m) * (s - n.m * n.m) + n.m * n.m * n.w * n.w := by
    intro s
    have : n.m * n.m * n.w * n.w = (n.m * n.w) * (n.m * n.w) := by ring
    rw [this]
    have := mul_pos hmG hmG
    nlinarith [mul_self_nonneg (s - n.m * n.m)]
  have hder : ∀ s ∈ Set.uIcc n.lo x, HasDerivAt (fun s => Real.arctan ((s - n.m * n.m) / (n.m * n.w)) / (n.phi2 - n.phi1))
      (n.pdf s) s := by
    intro s _
    have d1 : HasDerivAt (fun s : ℝ => (s - n.m * n.m) / (n.m * n.w)) (1 / (n.m * n.w)) s :=
      ((hasDerivAt_id s).sub_const _).div_const _
    have d2 := (d1.arctan).div_const (n.phi2 - n.phi1)
    refine d2.congr_deriv ?_
    unfold Node.pdf
    simp only [hk]
    have h2 := hden s
    have h3 : 1 + ((s - n.m * n.m) / (n.m * n.w)) ^ 2 ≠ 0 := by positivity
    have hm : n.m ≠ 0 := by rintro h; rw [h] at hmG; simp at hmG
    have hw : n.w ≠ 0 := by rintro h; rw [h] at hmG; simp at hmG
    have h4 : 1 + ((s - n.m * n.m) / (n.m * n.w)) ^ 2 =
      ((s - n.m * n.m) * (s - n.m * n.m) + n.m * n.m * n.w * n.w) / ((n.m * n.w) * (n.m * n.w)) := by
      field_simp
      ring
    rw [h4]
    have h2' := h2.ne'
    field_simp
  rw [intervalIntegral.integral_eq_sub_of_hasDerivAt hder]
  · rw [← e1, ← sub_div]
  · apply Continuous.intervalIntegrable
    unfold Node.pdf
    simp only [hk]
    apply Continuous.div continuous_const (by fun_prop)
    intro s
    exact mul_ne_zero hd (hden s).ne'

/-- `pdf` is the density of `draw`: the probability below the value drawn from `u` is `u`. -/
theorem pdf_integral {n : Node} (h : n.Ok) (hk : n.kind = .bw ∨ n.kind = .flat) (hlt : n.lo < n.hi) {u : ℝ}
    (h0 : 0 ≤ u) (h1 : u ≤ 1) (hc : Real.cos ((n.phi2 - n.phi1) * u) ≠ 0) :
    ∫ s in n.lo..n.draw u, n.pdf s = u := by
  rcases hk with hk | hk
  · rw [pdf_integral_bw h hk hlt, draw_bw h hk h0 h1 hc]
    obtain ⟨a1, a2, a3, a4⟩ := angle_mem h hk h0 h1
    obtain ⟨hle, hb, _⟩ := h
    obtain ⟨hmG, e1, e2⟩ := hb hk
    have hφ : n.phi1 < n.phi2 := by
      rw [e1, e2]
      apply Real.arctan_strictMono
      exact div_lt_div_of_pos_right (by linarith) hmG
    rw [add_sub_cancel_left, mul_div_cancel_left₀ _ hmG.ne', Real.arctan_tan (by linarith) (by linarith)]
    rw [add_sub_cancel_left, mul_div_cancel_left₀]
    linarith
  · have e : ∀ s, n.pdf s = 1 / (n.hi - n.lo) := by intro s; unfold Node.pdf; simp only [hk]
    have e' : n.draw u = (n.hi - n.lo) * u + n.lo := by unfold Node.draw; simp only [hk]
    simp only [e, e', intervalIntegral.integral_const, smul_eq_mul]
    have : n.hi - n.lo ≠ 0 := by linarith
    field_simp
    ring

/-- The phase-space factor falls with the daughters' masses and rises with the parent's. -/
theorem rho2_mono {s a b s' a' b' : ℝ} (ha : 0 ≤ a') (hb : 0 ≤ b') (hs : s ≤ s') (ha' : a' ≤ a) (hb' : b' ≤ b)
    (hgt : a + b + 2 * √(a * b) < s) : rho2 s a b ≤ rho2 s' a' b' := by
  have hq := Real.sqrt_nonneg (a * b)
  have hs0 : 0 < s := by nlinarith
  have hs0' : 0 < s' := by linarith
  have step1 : rho2 s a b ≤ rho2 s a' b := by
    unfold rho2
    have : 1 - 2 * (a' + b) / s + (a' - b) * (a' - b) / (s * s) - (1 - 2 * (a + b) / s + (a - b) * (a - b) / (s * s)) =
      (a - a') * (2 * s - (a + a' - 2 * b)) / (s * s) := by field_simp; ring
    have h2 : 0 ≤ (a - a') * (2 * s - (a + a' - 2 * b)) / (s * s) := by
      apply div_nonneg (mul_nonneg (by linarith) (by nlinarith)) (by positivity)
    linarith
  have step2 : rho2 s a' b ≤ rho2 s a' b' := by
    unfold rho2
    have : 1 - 2 * (a' + b') / s + (a' - b') * (a' - b') / (s * s) - (1 - 2 * (a' + b) / s + (a' - b) * (a' - b) / (s * s)) =
      (b - b') * (2 * s - (b + b' - 2 * a')) / (s * s) := by field_simp; ring
    have h2 : 0 ≤ (b - b') * (2 * s - (b + b' - 2 * a')) / (s * s) := by
      apply div_nonneg (mul_nonneg (by linarith) (by nlinarith)) (by positivity)
    linarith
  have step3 : rho2 s a' b' ≤ rho2 s' a' b' := by
    unfold rho2
    have : 1 - 2 * (a' + b') / s' + (a' - b') * (a' - b') / (s' * s') - (1 - 2 * (a' + b') / s + (a' - b') * (a' - b') / (s * s)) =
      (s' - s) * (2 * (a' + b') * s * s' - (a' - b') * (a' - b') * (s + s')) / (s * s * (s' * s')) := by
      field_simp; ring
    have h2 : 0 ≤ (s' - s) * (2 * (a' + b') * s * s' - (a' - b') * (a' - b') * (s + s')) / (s * s * (s' * s')) := by
      apply div_nonneg (mul_nonneg (by linarith) _) (by positivity)
      have k1 : (a' - b') * (a' - b') ≤ (a' + b') * (a' + b') := by nlinarith [mul_nonneg ha hb]
      have k2 : (a' + b') * (a' + b') ≤ (a' + b') * s := mul_le_mul_of_nonneg_left (by linarith) (by linarith)
      have k3 : (a' + b') * (a' + b') ≤ (a' + b') * s' := mul_le_mul_of_nonneg_left (by linarith) (by linarith)
      nlinarith
    linarith
  linarith

theorem rho2_pos {s a b : ℝ} (ha : 0 ≤ a) (hb : 0 ≤ b) (h : a + b + 2 * √(a * b) < s) : 0 < rho2 s a b := by
  have hq := Real.sqrt_nonneg (a * b)
  have hs : 0 < s := by linarith
  have hsq : √(a * b) * √(a * b) = a * b := Real.mul_self_sqrt (mul_nonneg ha hb)
  unfold rho2
  have : 1 - 2 * (a + b) / s + (a - b) * (a - b) / (s * s) = ((s - a - b) * (s - a - b) - 4 * (a * b)) / (s * s) := by
    field_simp; ring
  rw [this]
  apply div_pos _ (by positivity)
  nlinarith

end AmpGen.DecayChain
