import Verif.Helicity.LemmasLeaf
/-
Events that are rotated.
-/
namespace AmpGen.Helicity
open Complex Spec
open AmpGen.Transform
open AmpGen.Polarisation (Mom Properties)
open AmpGen.Polarisation.Spec (OnShell)

/-- A rotation about the axis. -/
def rz (a b : ℝ) (q : Mom) : Mom := ![a * q 0 - b * q 1, b * q 0 + a * q 1, q 2, q 3]

theorem turned_mul (A B : Matrix (Fin 3) (Fin 3) ℝ) (q : Mom) : turned A (turned B q) = turned (A * B) q := by
  funext i
  fin_cases i <;> simp [turned, Matrix.mul_apply, Fin.sum_univ_three] <;> ring

theorem turned_add (A : Matrix (Fin 3) (Fin 3) ℝ) (p q : Mom) : turned A (p + q) = turned A p + turned A q := by
  funext i
  fin_cases i <;> simp [turned] <;> ring

/-- The matrix of the rotation to the axis. -/
def wickM (c s f g : ℝ) : Matrix (Fin 3) (Fin 3) ℝ :=
  !![1 - (1 - c) * f * f, -(1 - c) * f * g, -f * s; -(1 - c) * f * g, 1 - (1 - c) * g * g, -g * s; s * f, s * g, c]

theorem turnP_eq (c s f g : ℝ) (q : Mom) : turnP c s f g q = turned (wickM c s f g) q := by
  funext i
  fin_cases i <;> simp [turned, turnP, wickM] <;> ring

theorem wickM_orthogonal {c s f g : ℝ} (h1 : c ^ 2 + s ^ 2 = 1) (h2 : f ^ 2 + g ^ 2 = 1) : (wickM c s f g) * (wickM c s f g).transpose = 1 ∧ (wickM c s f g).det = 1 := by
  constructor
  · ext i j
    fin_cases i <;> fin_cases j <;> simp [wickM, Matrix.mul_apply, Fin.sum_univ_three]
    · linear_combination f ^ 2 * h1 + (1 - c) ^ 2 * f ^ 2 * h2
    · linear_combination f * g * h1 + (1 - c) ^ 2 * f * g * h2
    · linear_combination (-(1 - c) * s * f) * h2
    · linear_combination f * g * h1 + (1 - c) ^ 2 * f * g * h2
    · linear_combination g ^ 2 * h1 + (1 - c) ^ 2 * g ^ 2 * h2
    · linear_combination (-(1 - c) * s * g) * h2
    · linear_combination (-(1 - c) * s * f) * h2
    · linear_combination (-(1 - c) * s * g) * h2
    · linear_combination h1 + s ^ 2 * h2
  · rw [Matrix.det_fin_three]
    simp [wickM]
    linear_combination h1 + (s ^ 2 - c * (1 - c)) * h2

theorem turned_norm {R : Matrix (Fin 3) (Fin 3) ℝ} (hR : R * R.transpose = 1) (p : Mom) :
    turned R p 0 * turned R p 0 + turned R p 1 * turned R p 1 + turned R p 2 * turned R p 2 = p 0 * p 0 + p 1 * p 1 + p 2 * p 2 := by
  have h := mul_eq_one_comm.mp hR
  have e := fun i j => congrFun (congrFun h i) j
  simp only [Matrix.mul_apply, Fin.sum_univ_three, Matrix.transpose_apply] at e
  have e00 := e 0 0
  have e11 := e 1 1
  have e22 := e 2 2
  have e01 := e 0 1
  have e02 := e 0 2
  have e12 := e 1 2
  simp [Matrix.one_apply] at e00 e11 e22 e01 e02 e12
  simp [turned]
  linear_combination (p 0) ^ 2 * e00 + (p 1) ^ 2 * e11 + (p 2) ^ 2 * e22 + 2 * p 0 * p 1 * e01 + 2 * p 0 * p 2 * e02 + 2 * p 1 * p 2 * e12

theorem turned_energy (R : Matrix (Fin 3) (Fin 3) ℝ) (p : Mom) : turned R p 3 = p 3 := by simp [turned]

theorem turned_msq {R : Matrix (Fin 3) (Fin 3) ℝ} (hR : R * R.transpose = 1) (p : Mom) : msq (turned R p) = msq p := by
  have h := turned_norm hR p
  unfold msq
  rw [turned_energy]
  linarith

theorem turned_len {R : Matrix (Fin 3) (Fin 3) ℝ} (hR : R * R.transpose = 1) (p : Mom) : len (turned R p) = len p := by
  unfold len
  rw [turned_norm hR]

theorem rz_len {a b : ℝ} (h : a ^ 2 + b ^ 2 = 1) (p : Mom) : len (rz a b p) = len p := by
  unfold len rz
  congr 1
  simp
  linear_combination ((p 0) ^ 2 + (p 1) ^ 2) * h

/-- A rotation that keeps the axis is one about the axis. -/
theorem about_axis {N : Matrix (Fin 3) (Fin 3) ℝ} (hN : N * N.transpose = 1) (hd : N.det = 1) {l : ℝ} (hl : l ≠ 0) (hz : ∀ q3, turned N ![0, 0, l, q3] = ![0, 0, l, q3]) :
    ∃ a b, a ^ 2 + b ^ 2 = 1 ∧ ∀ q, turned N q = rz a b q := by
  have h0 := congrFun (hz 0) 0
  have h1 := congrFun (hz 0) 1
  have h2 := congrFun (hz 0) 2
  simp [turned, hl] at h0 h1 h2
  have e := fun i j => congrFun (congrFun hN i) j
  simp only [Matrix.mul_apply, Fin.sum_univ_three, Matrix.transpose_apply] at e
  have e22 := e 2 2
  have e00 := e 0 0
  have e11 := e 1 1
  have e01 := e 0 1
  simp [Matrix.one_apply, h0, h1, h2] at e22 e00 e11 e01
  have z0 : N 2 0 = 0 := by nlinarith [mul_self_nonneg (N 2 0), mul_self_nonneg (N 2 1)]
  have z1 : N 2 1 = 0 := by nlinarith [mul_self_nonneg (N 2 0), mul_self_nonneg (N 2 1)]
  rw [Matrix.det_fin_three] at hd
  simp [h0, h1, h2, z0, z1] at hd
  have k1 : N 1 1 = N 0 0 := by linear_combination (-(N 1 1)) * e00 + (N 0 1) * e01 + (N 0 0) * hd
  have k2 : N 0 1 = -N 1 0 := by linear_combination (-(N 0 1)) * e11 + (N 1 1) * e01 - (N 1 0) * hd
  refine ⟨N 0 0, N 1 0, ?_, fun q => ?_⟩
  · rw [k2] at e00; linear_combination e00
  · funext i
    fin_cases i <;> simp [turned, rz, h0, h1, h2, z0, z1, k1, k2]
    ring

/-- The rotations to the axis before and after the rotation of an event. -/
theorem head_turn {R : Matrix (Fin 3) (Fin 3) ℝ} (hR : R * R.transpose = 1) (hd : R.det = 1) {p : Mom} {c s f g c' s' f' g' : ℝ} (h : Angles p c s f g)
    (h' : Angles (turned R p) c' s' f' g') (hl : len p ≠ 0) : ∃ a b, a ^ 2 + b ^ 2 = 1 ∧ ∀ q, turnP c' s' f' g' (turned R q) = rz a b (turnP c s f g q) := by
  obtain ⟨o, d⟩ := wickM_orthogonal h.cs h.fg
  obtain ⟨o', d'⟩ := wickM_orthogonal h'.cs h'.fg
  have o2 := mul_eq_one_comm.mp o
  have hN : (wickM c' s' f' g' * R * (wickM c s f g).transpose) * (wickM c' s' f' g' * R * (wickM c s f g).transpose).transpose = 1 := by
    rw [Matrix.transpose_mul, Matrix.transpose_mul, Matrix.transpose_transpose]
    calc _ = wickM c' s' f' g' * (R * ((wickM c s f g).transpose * wickM c s f g) * R.transpose) * (wickM c' s' f' g').transpose := by simp only [Matrix.mul_assoc]
      _ = 1 := by rw [o2, mul_one, hR, mul_one, o']
  have hdN : (wickM c' s' f' g' * R * (wickM c s f g).transpose).det = 1 := by
    rw [Matrix.det_mul, Matrix.det_mul, Matrix.det_transpose, d, d', hd]
    norm_num
  have comp : ∀ q, turned (wickM c' s' f' g' * R * (wickM c s f g).transpose) (turnP c s f g q) = turnP c' s' f' g' (turned R q) := by
    intro q
    rw [turnP_eq, turnP_eq, turned_mul, turned_mul, Matrix.mul_assoc, o2, mul_one]
  have ax := turn_axis 1 h
  have ax' := turn_axis 1 h'
  unfold turn at ax ax'
  rw [if_pos rfl] at ax ax'
  rw [turned_len hR, turned_energy] at ax'
  obtain ⟨a, b, hab, hrz⟩ := about_axis hN hdN hl (fun q3 => by
    have := comp p
    rw [ax, ax'] at this
    have e := fun i => congrFun this i
    have e0 := e 0
    have e1 := e 1
    have e2 := e 2
    simp [turned] at e0 e1 e2
    funext i
    fin_cases i <;> simp [turned, e0, e1, e2])
  exact ⟨a, b, hab, fun q => by rw [← comp, hrz]⟩

/-- The angles of a momentum that is turned about the axis. -/
theorem angles_rz {a b : ℝ} (hab : a ^ 2 + b ^ 2 = 1) {p : Mom} {c s f g c' s' f' g' : ℝ} (h : Angles p c s f g) (h' : Angles (rz a b p) c' s' f' g')
    (ht : p 0 * p 0 + p 1 * p 1 ≠ 0) : c' = c ∧ s' = s ∧ f' = a * f - b * g ∧ g' = b * f + a * g := by
  have hx := h'.x
  have hy := h'.y
  have hz := h'.z
  rw [rz_len hab] at hx hy hz
  simp [rz] at hx hy hz
  have hls : len p * s ≠ 0 := by
    intro h0
    apply ht
    rw [h.x, h.y, h0]
    ring
  have hl : len p ≠ 0 := left_ne_zero_of_mul hls
  have hc : c' = c := by
    have := h.z
    rw [hz] at this
    exact mul_left_cancel₀ hl this
  have hs : s' = s := by
    have e1 := h.cs
    have e2 := h'.cs
    rw [hc] at e2
    have : (s' - s) * (s' + s) = 0 := by linear_combination e2 - e1
    rcases mul_eq_zero.1 this with e | e
    · linarith
    · have := h.s0
      have := h'.s0
      linarith
  rw [hs] at hx hy
  refine ⟨hc, hs, ?_, ?_⟩
  · apply mul_left_cancel₀ hls
    rw [← hx, h.x, h.y]
    ring
  · apply mul_left_cancel₀ hls
    rw [← hy, h.x, h.y]
    ring

theorem turn_rz {a b : ℝ} (hab : a ^ 2 + b ^ 2 = 1) {sgn : ℤ} (hs : sgn = 1 ∨ sgn = -1) (c s f g : ℝ) (q : Mom) :
    turn sgn c s (a * f - b * g) (b * f + a * g) (rz a b q) = rz a (sgn * b) (turn sgn c s f g q) := by
  have hn : (a * f - b * g) * (a * q 0 - b * q 1) + (b * f + a * g) * (b * q 0 + a * q 1) = f * q 0 + g * q 1 := by linear_combination (f * q 0 + g * q 1) * hab
  rcases hs with rfl | rfl
  · unfold turn
    rw [if_pos rfl, if_pos rfl]
    unfold turnP rz
    simp only [Matrix.cons_val]
    simp only [hn]
    funext i
    fin_cases i <;> simp <;> ring
  · unfold turn
    rw [if_neg (by norm_num), if_neg (by norm_num)]
    unfold turnM rz
    simp only [Matrix.cons_val]
    simp only [hn]
    funext i
    fin_cases i <;> simp <;> ring

theorem boostz_rz (γ a b : ℝ) (q : Mom) : boostz γ (rz a b q) = rz a b (boostz γ q) := by
  unfold boostz rz
  funext i
  fin_cases i <;> simp

/-- The angles of the momentum of the second product, if they fly back to back. -/
theorem angles_back {p p2 : Mom} (h0 : p2 0 = -p 0) (h1 : p2 1 = -p 1) (h2 : p2 2 = -p 2) {c s f g c' s' f' g' : ℝ} (h : Angles p c s f g) (h' : Angles p2 c' s' f' g')
    (ht : p 0 * p 0 + p 1 * p 1 ≠ 0) : ∀ q, turnM c' s' f' g' q = rz 1 0 ![turnP c s f g q 0, -turnP c s f g q 1, -turnP c s f g q 2, q 3] := by
  have hl : len p2 = len p := by unfold len; rw [h0, h1, h2]; congr 1; ring
  have hx := h'.x
  have hy := h'.y
  have hz := h'.z
  rw [hl] at hx hy hz
  have hls : len p * s ≠ 0 := by
    intro h0
    apply ht
    rw [h.x, h.y, h0]
    ring
  have hl0 : len p ≠ 0 := left_ne_zero_of_mul hls
  have hc : c' = -c := by
    apply mul_left_cancel₀ hl0
    rw [← hz, h2, h.z]
    ring
  have hs : s' = s := by
    have e1 := h.cs
    have e2 := h'.cs
    rw [hc] at e2
    have : (s' - s) * (s' + s) = 0 := by linear_combination e2 - e1
    rcases mul_eq_zero.1 this with e | e
    · linarith
    · have := h.s0
      have := h'.s0
      linarith
  rw [hs] at hx hy
  have hf : f' = -f := by
    apply mul_left_cancel₀ hls
    rw [← hx, h0, h.x]
    ring
  have hg : g' = -g := by
    apply mul_left_cancel₀ hls
    rw [← hy, h1, h.y]
    ring
  intro q
  rw [hc, hs, hf, hg]
  funext i
  fin_cases i <;> simp [turnM, turnP, rz] <;> ring

end AmpGen.Helicity
