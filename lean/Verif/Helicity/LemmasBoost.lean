import Verif.Helicity.LemmasWick
/-
The frame of a decay product.
-/
namespace AmpGen.Helicity
open Complex
open AmpGen.Transform
open AmpGen.Polarisation (Mom Properties)
open AmpGen.Polarisation.Spec (cx cc OnShell)

/-- The square of the mass. -/
def msq (p : Mom) : ℝ := p 3 * p 3 - p 0 * p 0 - p 1 * p 1 - p 2 * p 2

/-- A momentum of a massive particle. -/
def Forward (p : Mom) : Prop := 0 < p 3 ∧ 0 < msq p

theorem act1_add (t : Transform) (p q : Mom) : act1 t (p + q) = act1 t p + act1 t q := by
  unfold act1
  cases t.type <;> simp only [] <;> funext i <;> fin_cases i <;> simp <;> ring

theorem act_add (ts : List Transform) (p q : Mom) : act ts (p + q) = act ts p + act ts q := by
  induction ts generalizing p q with
  | nil => rfl
  | cons t ts ih =>
    show act ts (act1 t (p + q)) = act ts (act1 t p) + act ts (act1 t q)
    rw [act1_add, ih]

theorem act1_msq {t : Transform} (h : Proper t) (p : Mom) : msq (act1 t p) = msq p := by
  obtain ⟨hk, ha⟩ := h
  unfold act1 msq
  rcases ht : t.type with _ | _
  · rw [ht] at ha
    simp only [] at ha ⊢
    rw [hk]
    obtain ⟨s, hs⟩ : ∃ s, √(t.arg * t.arg - 1) = s := ⟨_, rfl⟩
    have hs2 : s * s = t.arg * t.arg - 1 := by rw [← hs]; exact Real.mul_self_sqrt (by nlinarith)
    rw [hs]
    simp
    generalize t.kx = x at *
    generalize t.ky = y at *
    generalize t.kz = z at *
    generalize t.arg = a at *
    linear_combination (-(p 3) ^ 2 * s ^ 2 + 2 * (a - 1) * s * p 3 * (x * p 0 + y * p 1 + z * p 2) - (a - 1) ^ 2 * (x * p 0 + y * p 1 + z * p 2) ^ 2) * hk +
      ((x * p 0 + y * p 1 + z * p 2) ^ 2 - (p 3) ^ 2) * hs2
  · rw [ht] at ha
    simp only [] at ha ⊢
    rw [hk]
    obtain ⟨s, hs⟩ : ∃ s, √(1 - t.arg * t.arg) = s := ⟨_, rfl⟩
    have hs2 : s * s = 1 - t.arg * t.arg := by rw [← hs]; exact Real.mul_self_sqrt (by nlinarith [ha.1, ha.2])
    rw [hs]
    simp
    generalize t.kx = x at *
    generalize t.ky = y at *
    generalize t.kz = z at *
    generalize t.arg = a at *
    linear_combination (-(s * s) * ((p 0) ^ 2 + (p 1) ^ 2 + (p 2) ^ 2) - (1 - a) ^ 2 * (x * p 0 + y * p 1 + z * p 2) ^ 2) * hk +
      ((x * p 0 + y * p 1 + z * p 2) ^ 2 - ((p 0) ^ 2 + (p 1) ^ 2 + (p 2) ^ 2)) * hs2

theorem act1_forward {t : Transform} (h : Proper t) {p : Mom} (hp : Forward p) : Forward (act1 t p) := by
  refine ⟨?_, by rw [act1_msq h]; exact hp.2⟩
  obtain ⟨hk, ha⟩ := h
  obtain ⟨h0, h1⟩ := hp
  unfold act1
  rcases ht : t.type with _ | _
  · rw [ht] at ha
    simp only [] at ha ⊢
    rw [hk]
    obtain ⟨s, hs⟩ : ∃ s, √(t.arg * t.arg - 1) = s := ⟨_, rfl⟩
    have hs2 : s * s = t.arg * t.arg - 1 := by rw [← hs]; exact Real.mul_self_sqrt (by nlinarith)
    have hs0 : 0 ≤ s := by rw [← hs]; exact Real.sqrt_nonneg _
    rw [hs]
    simp
    generalize t.kx = x at *
    generalize t.ky = y at *
    generalize t.kz = z at *
    generalize t.arg = a at *
    unfold msq at h1
    have hn : (x * p 0 + y * p 1 + z * p 2) ^ 2 < p 3 ^ 2 := by
      have : (x * p 0 + y * p 1 + z * p 2) ^ 2 ≤ (x ^ 2 + y ^ 2 + z ^ 2) * (p 0 ^ 2 + p 1 ^ 2 + p 2 ^ 2) := by
        nlinarith [sq_nonneg (x * p 1 - y * p 0), sq_nonneg (x * p 2 - z * p 0), sq_nonneg (y * p 2 - z * p 1)]
      rw [hk] at this
      nlinarith
    have hn' := abs_lt.1 (sq_lt_sq.1 hn)
    rw [abs_of_pos h0] at hn'
    have hsa : s < a := by nlinarith
    nlinarith [mul_nonneg hs0 (by linarith [hn'.2] : 0 ≤ p 3 - (x * p 0 + y * p 1 + z * p 2))]
  · simpa using h0

theorem act_msq {ts : List Transform} (h : ∀ t ∈ ts, Proper t) (p : Mom) : msq (act ts p) = msq p := by
  induction ts generalizing p with
  | nil => rfl
  | cons t ts ih =>
    show msq (act ts (act1 t p)) = _
    rw [ih (fun u hu => h u (List.mem_cons_of_mem _ hu)), act1_msq (h t List.mem_cons_self)]

theorem act_forward {ts : List Transform} (h : ∀ t ∈ ts, Proper t) {p : Mom} (hp : Forward p) : Forward (act ts p) := by
  induction ts generalizing p with
  | nil => exact hp
  | cons t ts ih => exact ih (fun u hu => h u (List.mem_cons_of_mem _ hu)) (act1_forward (h t List.mem_cons_self) hp)

theorem OnShell.forward {m : ℝ} {p : Mom} (h : OnShell m p) : Forward p ∧ msq p = m * m := by
  obtain ⟨h1, h2, h3⟩ := h
  have : msq p = m * m := by unfold msq; linear_combination h3
  exact ⟨⟨h2, by rw [this]; positivity⟩, this⟩

theorem Forward.add {p q : Mom} (hp : Forward p) (hq : Forward q) : Forward (p + q) := by
  obtain ⟨p0, p1⟩ := hp
  obtain ⟨q0, q1⟩ := hq
  unfold msq at p1 q1
  refine ⟨by simp; linarith, ?_⟩
  unfold msq
  simp
  have hn : (p 0 * q 0 + p 1 * q 1 + p 2 * q 2) ^ 2 ≤ (p 3 * q 3) ^ 2 := by
    have c : (p 0 * q 0 + p 1 * q 1 + p 2 * q 2) ^ 2 ≤ (p 0 ^ 2 + p 1 ^ 2 + p 2 ^ 2) * (q 0 ^ 2 + q 1 ^ 2 + q 2 ^ 2) := by
      nlinarith [sq_nonneg (p 0 * q 1 - p 1 * q 0), sq_nonneg (p 0 * q 2 - p 2 * q 0), sq_nonneg (p 1 * q 2 - p 2 * q 1)]
    have d : (p 0 ^ 2 + p 1 ^ 2 + p 2 ^ 2) * (q 0 ^ 2 + q 1 ^ 2 + q 2 ^ 2) ≤ p 3 ^ 2 * q 3 ^ 2 :=
      mul_le_mul (by nlinarith) (by nlinarith) (by positivity) (by positivity)
    nlinarith
  have hn' := abs_le_abs_of_sq_le_sq hn
  rw [abs_of_pos (mul_pos p0 q0)] at hn'
  have := (abs_le.1 hn').2
  nlinarith
where
  abs_le_abs_of_sq_le_sq {a b : ℝ} (h : a ^ 2 ≤ b ^ 2) : |a| ≤ |b| := sq_le_sq.1 h

/-- The boost along the axis. -/
noncomputable def boostz (γ : ℝ) (q : Mom) : Mom := ![q 0, q 1, γ * q 2 - √(γ * γ - 1) * q 3, γ * q 3 - √(γ * γ - 1) * q 2]

theorem act1_boostz (γ : ℝ) (q : Mom) : act1 ⟨γ, 0, 0, 1, .boost⟩ q = boostz γ q := by
  unfold act1 boostz
  simp only []
  funext i
  fin_cases i <;> simp <;> ring

/-- The rotation for the first product, or for the second. -/
noncomputable def turn (sgn : ℤ) (c s f g : ℝ) (q : Mom) : Mom := if sgn = 1 then turnP c s f g q else turnM c s f g q

theorem turn_axis (sgn : ℤ) {p : Mom} {c s f g : ℝ} (h : Angles p c s f g) : turn sgn c s f g p = ![0, 0, len p, p 3] := by
  obtain ⟨h1, h2, -, hx, hy, hz⟩ := h
  have hn : f * p 0 + g * p 1 = len p * s := by rw [hx, hy]; linear_combination (len p * s) * h2
  unfold turn turnP turnM
  generalize len p = l at *
  split <;> rw [hn, hx, hy, hz] <;> funext i <;> fin_cases i <;> simp
  · ring
  · ring
  · linear_combination l * h1
  · ring
  · ring
  · linear_combination l * h1

theorem turn_energy (sgn : ℤ) (c s f g : ℝ) (q : Mom) : turn sgn c s f g q 3 = q 3 := by
  unfold turn turnP turnM
  split <;> simp

/-- A particle that is brought to rest in its frame. -/
def Massive (t : Particle) : Prop := Forward t.P ∧ t.massSq = msq t.P ∧ (t.isStable = true → isPhoton t.props = false ∧ isNeutrino t.props = false)

/-- The frame of a decay product. -/
theorem frame_spec (cfg : Config) {t : Particle} {F : TransformSequence} {sgn : ℤ} (hF : Good F) (ht : Massive t) (hc : Clear (act F.transforms t.P)) (hs : sgn = 1 ∨ sgn = -1) :
    ∃ F' c s f g, frameOf cfg false t (some F) sgn = some F' ∧ Good F' ∧ Angles (act F.transforms t.P) c s f g ∧
      (∀ q, act F'.transforms q = boostz (act F.transforms t.P 3 / √t.massSq) (turn sgn c s f g (act F.transforms q))) ∧
      act F'.transforms t.P = ![0, 0, 0, √t.massSq] := by
  obtain ⟨hf, hm, hn⟩ := ht
  obtain ⟨c, s, f, g, ha, hg, h1, h2⟩ := wick_angles hc
  have hf' := act_forward hF.proper hf
  have hm' := act_msq hF.proper t.P
  obtain ⟨p, hp⟩ : ∃ p, act F.transforms t.P = p := ⟨_, rfl⟩
  rw [hp] at ha hg h1 h2 hf' hm' ⊢
  have hms : 0 < t.massSq := by rw [hm]; exact hf.2
  obtain ⟨m, hM⟩ : ∃ m, √t.massSq = m := ⟨_, rfl⟩
  have hm2 : m * m = t.massSq := by rw [← hM]; exact Real.mul_self_sqrt hms.le
  have hm0 : 0 < m := by rw [← hM]; exact Real.sqrt_pos.2 hms
  rw [hM]
  have hl := len_sq p
  have hl0 := len_nonneg p
  have hE : p 3 * p 3 = m * m + len p * len p := by
    rw [hl, hm2, hm, ← hm']
    unfold msq
    ring
  have hγ : 1 ≤ p 3 / m := by
    rw [le_div_iff₀ hm0, one_mul]
    nlinarith [hf'.1]
  have hpr : Proper ⟨p 3 / m, 0, 0, 1, .boost⟩ := ⟨by simp, hγ⟩
  have hgood : Good (F.join ((wickRotation p sgn).join (.single ⟨p 3 / m, 0, 0, 1, .boost⟩))) := hF.join ((hg sgn).join (Good.single hpr))
  have hact : ∀ q, act (F.join ((wickRotation p sgn).join (.single ⟨p 3 / m, 0, 0, 1, .boost⟩))).transforms q = boostz (p 3 / m) (turn sgn c s f g (act F.transforms q)) := by
    intro q
    show act (F.transforms ++ ((wickRotation p sgn).transforms ++ [⟨p 3 / m, 0, 0, 1, .boost⟩])) q = _
    rw [act_append, act_append]
    show act1 ⟨p 3 / m, 0, 0, 1, .boost⟩ (act (wickRotation p sgn).transforms (act F.transforms q)) = _
    rw [act1_boostz]
    congr 1
    rcases hs with rfl | rfl
    · rw [h1]; rfl
    · rw [h2]; rfl
  refine ⟨_, c, s, f, g, ?_, hgood, ha, hact, ?_⟩
  · unfold frameOf
    have hap : apply F t.P = some p := by rw [hF.apply, hp]
    have hcond : (!t.isStable || !(isPhoton t.props || isNeutrino t.props)) = true := by
      rcases hst : t.isStable with _ | _
      · rfl
      · have := hn hst
        simp [this.1, this.2]
    have hw : wickTransform p t sgn = some ((wickRotation p sgn).join (.single ⟨p 3 / m, 0, 0, 1, .boost⟩)) := by
      unfold wickTransform
      rw [if_pos hcond, if_neg (not_le.2 hms), hM]
    simp [hap, hw]
  · rw [hact, hp, turn_axis sgn ha]
    have hsq : √(p 3 / m * (p 3 / m) - 1) = len p / m := by
      rw [show p 3 / m * (p 3 / m) - 1 = (len p / m) * (len p / m) by field_simp; linear_combination hE]
      exact Real.sqrt_mul_self (by positivity)
    unfold boostz
    rw [hsq]
    funext i
    fin_cases i <;> simp
    · field_simp; ring
    · field_simp; linear_combination hE

end AmpGen.Helicity
