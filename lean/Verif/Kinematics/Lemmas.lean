import Verif.Kinematics.Spec
import Mathlib.Tactic.LinearCombination
import Mathlib.Tactic.Positivity
import Mathlib.Tactic.FieldSimp
/-
Loops over the particles of an event.
-/
namespace AmpGen.Kinematics

@[ext] theorem P4.ext' {p q : P4} (hx : p.x = q.x) (hy : p.y = q.y) (hz : p.z = q.z) (hE : p.E = q.E) : p = q := by
  cases p; cases q; simp_all

theorem event_ext {e e' : Event} (hs : e.size = e'.size) (h : ∀ i, momentum e i = momentum e' i) : e = e' := by
  have hd : e.data = e'.data := by
    funext a
    have h1 := h (a / 4)
    simp only [momentum, P4.mk.injEq] at h1
    have h2 : a = 4 * (a / 4) + a % 4 := by omega
    have h3 : a % 4 = 0 ∨ a % 4 = 1 ∨ a % 4 = 2 ∨ a % 4 = 3 := by omega
    rcases h3 with h3 | h3 | h3 | h3 <;> rw [h3] at h2
    · rw [h2]; exact h1.1
    · rw [h2]; exact h1.2.1
    · rw [h2]; exact h1.2.2.1
    · rw [h2]; exact h1.2.2.2
  cases e; cases e'
  simp only at hs hd
  rw [hs, hd]

theorem loop_size (step : Event → Nat → Event) (h : ∀ e i, (step e i).size = e.size) (k : Nat) (e : Event) :
    ((List.range k).foldl step e).size = e.size := by
  induction k with
  | zero => rfl
  | succ k ih => rw [List.range_succ, List.foldl_append, List.foldl_cons, List.foldl_nil, h, ih]

theorem loop_momentum (step : Event → Nat → Event) (F : P4 → P4) (h : ∀ e i j, momentum (step e i) j = if j = i then F (momentum e j) else momentum e j)
    (k : Nat) (e : Event) (j : Nat) : momentum ((List.range k).foldl step e) j = if j < k then F (momentum e j) else momentum e j := by
  induction k with
  | zero => simp
  | succ k ih =>
    rw [List.range_succ, List.foldl_append, List.foldl_cons, List.foldl_nil, h, ih]
    by_cases hj : j = k
    · rw [if_pos hj, if_neg (by omega), if_pos (by omega)]
    · rw [if_neg hj]
      exact if_congr (by omega) rfl rfl

theorem momentum_set (e : Event) (i j c : Nat) (hc : c < 4) (p : ℝ) :
    momentum (e.set (4 * i + c) p) j = if j = i then
      ⟨if c = 0 then p else (momentum e j).x, if c = 1 then p else (momentum e j).y, if c = 2 then p else (momentum e j).z, if c = 3 then p else (momentum e j).E⟩
      else momentum e j := by
  by_cases h : j = i
  · subst h
    rw [if_pos rfl]
    simp only [momentum, Event.set, P4.mk.injEq]
    refine ⟨?_, ?_, ?_, ?_⟩
    · exact if_congr (by omega) rfl rfl
    · exact if_congr (by omega) rfl rfl
    · exact if_congr (by omega) rfl rfl
    · exact if_congr (by omega) rfl rfl
  · rw [if_neg h]
    simp only [momentum, Event.set, P4.mk.injEq]
    refine ⟨if_neg (by omega), if_neg (by omega), if_neg (by omega), if_neg (by omega)⟩

/-- What the body of `boost` does to a momentum. -/
noncomputable def boostP (nx ny nz v : ℝ) (p : P4) : P4 :=
  let gamma := 1 / √(1 - v * v)
  let norm := √(nx * nx + ny * ny + nz * nz)
  let nv := p.x * nx + p.y * ny + p.z * nz
  ⟨p.x + ((gamma - 1) * nv / norm + gamma * p.E * v) * nx / norm, p.y + ((gamma - 1) * nv / norm + gamma * p.E * v) * ny / norm,
    p.z + ((gamma - 1) * nv / norm + gamma * p.E * v) * nz / norm, gamma * (p.E + v * nv / norm)⟩

/-- What the body of `rotate` does to a momentum. -/
noncomputable def rotateP (nx ny nz v : ℝ) (p : P4) : P4 :=
  let cv := Real.cos v
  let sv := Real.sin v
  let norm := √(nx * nx + ny * ny + nz * nz)
  let k := (1 - cv) * (p.x * nx + p.y * ny + p.z * nz)
  ⟨cv * p.x + sv * (p.z * ny - p.y * nz) / norm + k * nx / (norm * norm), cv * p.y + sv * (p.x * nz - p.z * nx) / norm + k * ny / (norm * norm),
    cv * p.z + sv * (p.y * nx - p.x * ny) / norm + k * nz / (norm * norm), p.E⟩

/-- What the body of `rotateBasis` does to a momentum. -/
noncomputable def basisP (p1 p2 p3 : V3) (p : P4) : P4 :=
  ⟨(p1.x * p.x + p1.y * p.y + p1.z * p.z) / p1.Mag, (p2.x * p.x + p2.y * p.y + p2.z * p.z) / p2.Mag, (p3.x * p.x + p3.y * p.y + p3.z * p.z) / p3.Mag, p.E⟩

theorem momentum_boost (e : Event) (nx ny nz v : ℝ) (j : Nat) :
    momentum (boost e nx ny nz v) j = if j < particles e then boostP nx ny nz v (momentum e j) else momentum e j := by
  unfold boost
  refine loop_momentum _ _ (fun e i j => ?_) _ _ _
  simp only []
  rw [momentum_set _ _ _ 3 (by omega), momentum_set _ _ _ 2 (by omega), momentum_set _ _ _ 1 (by omega), momentum_set _ _ _ 0 (by omega)]
  by_cases h : j = i
  · subst h
    simp only [if_true, one_ne_zero, Nat.reduceEqDiff, if_false, Event.set, OfNat.zero_ne_ofNat, OfNat.ofNat_ne_zero, zero_ne_one]
    simp [boostP, momentum]
  · simp only [h, if_false]

theorem boost_size (e : Event) (nx ny nz v : ℝ) : (boost e nx ny nz v).size = e.size := by
  unfold boost; refine loop_size _ ?_ _ _; intro _ _; rfl

theorem momentum_rotate (e : Event) (nx ny nz v : ℝ) (j : Nat) :
    momentum (rotate e nx ny nz v) j = if j < particles e then rotateP nx ny nz v (momentum e j) else momentum e j := by
  unfold rotate
  refine loop_momentum _ _ (fun e i j => ?_) _ _ _
  simp only []
  rw [momentum_set _ _ _ 2 (by omega), momentum_set _ _ _ 1 (by omega), momentum_set _ _ _ 0 (by omega)]
  by_cases h : j = i
  · subst h
    simp [rotateP, momentum]
  · simp only [h, if_false]

theorem rotate_size (e : Event) (nx ny nz v : ℝ) : (rotate e nx ny nz v).size = e.size := by
  unfold rotate; refine loop_size _ ?_ _ _; intro _ _; rfl

theorem momentum_basis (e : Event) (p1 p2 p3 : V3) (j : Nat) :
    momentum (rotateBasis e p1 p2 p3) j = if j < particles e then basisP p1 p2 p3 (momentum e j) else momentum e j := by
  unfold rotateBasis
  refine loop_momentum _ _ (fun e i j => ?_) _ _ _
  simp only []
  rw [momentum_set _ _ _ 2 (by omega), momentum_set _ _ _ 1 (by omega), momentum_set _ _ _ 0 (by omega)]
  by_cases h : j = i
  · subst h
    simp [basisP, momentum]
  · simp only [h, if_false]

/-! ### Invariant masses -/

theorem fold_total (f : Nat → ℝ) (l : List Nat) (a : ℝ) : l.foldl (fun (a : ℝ) (i : Nat) => a + f i) a = a + (l.map f).sum := by
  induction l generalizing a with
  | nil => simp
  | cons i l ih => rw [List.foldl_cons, ih, List.map_cons, List.sum_cons]; ring

theorem total_x (e : Event) (l : List Nat) : (total e l).x = (l.map fun i => e.data (4 * i)).sum := by
  induction l with
  | nil => rfl
  | cons i l ih => rw [List.map_cons, List.sum_cons, ← ih]; rfl

theorem total_y (e : Event) (l : List Nat) : (total e l).y = (l.map fun i => e.data (4 * i + 1)).sum := by
  induction l with
  | nil => rfl
  | cons i l ih => rw [List.map_cons, List.sum_cons, ← ih]; rfl

theorem total_z (e : Event) (l : List Nat) : (total e l).z = (l.map fun i => e.data (4 * i + 2)).sum := by
  induction l with
  | nil => rfl
  | cons i l ih => rw [List.map_cons, List.sum_cons, ← ih]; rfl

theorem total_E (e : Event) (l : List Nat) : (total e l).E = (l.map fun i => e.data (4 * i + 3)).sum := by
  induction l with
  | nil => rfl
  | cons i l ih => rw [List.map_cons, List.sum_cons, ← ih]; rfl

theorem s1_eq (e : Event) (i : Nat) : e.s1 i = (total e [i]).Dot (total e [i]) := by
  simp only [Event.s1, total, P4.Dot, P4.add, momentum, add_zero]
  ring

theorem s_eq (e : Event) (l : List Nat) : e.s l = (total e l).Dot (total e l) := by
  unfold Event.s
  split
  · simp only [Event.s2, total, P4.Dot, P4.add, momentum, add_zero]
    ring
  · simp only [Event.s3, total, P4.Dot, P4.add, momentum, add_zero]
    ring
  · simp only [fold_total, zero_add, P4.Dot, total_x, total_y, total_z, total_E, Nat.mul_comm _ 4, add_zero]
    ring

theorem pFromEvent_fold (e : Event) (l : List Nat) (p : P4) :
    l.foldl (fun (p : P4) (r : Nat) => (⟨p.x + e.data (4 * r + 0), p.y + e.data (4 * r + 1), p.z + e.data (4 * r + 2), p.E + e.data (4 * r + 3)⟩ : P4)) p = p.add (total e l) := by
  induction l generalizing p with
  | nil => simp [total, P4.add]
  | cons i l ih =>
    rw [List.foldl_cons, ih]
    simp only [total, P4.add, momentum, add_zero]
    ext <;> simp only [] <;> ring

theorem pFromEvent_eq (e : Event) (l : List Nat) : pFromEvent e l = total e l := by
  unfold pFromEvent
  rw [pFromEvent_fold]
  simp [P4.add]

/-- A map of momenta that respects sums maps the total. -/
theorem total_map {F : P4 → P4} (h0 : F ⟨0, 0, 0, 0⟩ = ⟨0, 0, 0, 0⟩) (hadd : ∀ p q, F (p.add q) = (F p).add (F q)) {e e' : Event} {l : List Nat}
    (h : ∀ i ∈ l, momentum e' i = F (momentum e i)) : total e' l = F (total e l) := by
  induction l with
  | nil => exact h0.symm
  | cons i l ih =>
    rw [total, total, hadd, ih fun j hj => h j (List.mem_cons_of_mem _ hj), h i List.mem_cons_self]

/-! ### Boosts -/

section
variable {nx ny nz : ℝ} (hn : ¬(nx = 0 ∧ ny = 0 ∧ nz = 0))
include hn

theorem normSq_pos : 0 < nx * nx + ny * ny + nz * nz := by
  rcases not_and_or.mp hn with h | h
  · have := mul_self_pos.mpr h
    nlinarith [mul_self_nonneg ny, mul_self_nonneg nz]
  · rcases not_and_or.mp h with h | h
    · have := mul_self_pos.mpr h
      nlinarith [mul_self_nonneg nx, mul_self_nonneg nz]
    · have := mul_self_pos.mpr h
      nlinarith [mul_self_nonneg nx, mul_self_nonneg ny]

theorem norm_pos : 0 < √(nx * nx + ny * ny + nz * nz) := Real.sqrt_pos.mpr (normSq_pos hn)

theorem unit_normed {r : ℝ} (hr : √(nx * nx + ny * ny + nz * nz) = r) : (nx / r) * (nx / r) + (ny / r) * (ny / r) + (nz / r) * (nz / r) = 1 := by
  have h1 : r * r = nx * nx + ny * ny + nz * nz := by rw [← hr]; exact Real.mul_self_sqrt (normSq_pos hn).le
  have h2 : r ≠ 0 := by rw [← hr]; exact (norm_pos hn).ne'
  field_simp
  linear_combination -h1
end

/-- A boost along the unit vector `u`, with `g` for gamma. -/
def boostU (ux uy uz g v : ℝ) (p : P4) : P4 :=
  let pu := p.x * ux + p.y * uy + p.z * uz
  ⟨p.x + ((g - 1) * pu + g * p.E * v) * ux, p.y + ((g - 1) * pu + g * p.E * v) * uy, p.z + ((g - 1) * pu + g * p.E * v) * uz, g * (p.E + v * pu)⟩

theorem boostP_eq (nx ny nz v : ℝ) (p : P4) : boostP nx ny nz v p =
    boostU (nx / √(nx * nx + ny * ny + nz * nz)) (ny / √(nx * nx + ny * ny + nz * nz)) (nz / √(nx * nx + ny * ny + nz * nz)) (1 / √(1 - v * v)) v p := by
  simp only [boostP, boostU]
  generalize √(nx * nx + ny * ny + nz * nz) = r
  ext <;> simp only [] <;> ring

theorem boostU_dot {ux uy uz g v : ℝ} (hu : ux * ux + uy * uy + uz * uz = 1) (hg : g * g * (1 - v * v) = 1) (p q : P4) :
    (boostU ux uy uz g v p).Dot (boostU ux uy uz g v q) = p.Dot q := by
  simp only [boostU, P4.Dot]
  obtain ⟨a, ha⟩ : ∃ a, p.x * ux + p.y * uy + p.z * uz = a := ⟨_, rfl⟩
  obtain ⟨b, hb⟩ : ∃ b, q.x * ux + q.y * uy + q.z * uz = b := ⟨_, rfl⟩
  rw [ha, hb]
  obtain ⟨A, hA⟩ : ∃ A, (g - 1) * a + g * p.E * v = A := ⟨_, rfl⟩
  obtain ⟨B, hB⟩ : ∃ B, (g - 1) * b + g * q.E * v = B := ⟨_, rfl⟩
  rw [hA, hB]
  have e1 : (p.x + A * ux) * (q.x + B * ux) + (p.y + A * uy) * (q.y + B * uy) + (p.z + A * uz) * (q.z + B * uz) =
      p.x * q.x + p.y * q.y + p.z * q.z + B * a + A * b + A * B := by
    rw [← ha, ← hb]
    linear_combination (A * B) * hu
  have e2 : g * (p.E + v * a) * (g * (q.E + v * b)) = p.E * q.E + B * a + A * b + A * B := by
    rw [← hA, ← hB]
    linear_combination (p.E * q.E - a * b) * hg
  linear_combination e2 - e1

theorem boostU_add (ux uy uz g v : ℝ) (p q : P4) : boostU ux uy uz g v (p.add q) = (boostU ux uy uz g v p).add (boostU ux uy uz g v q) := by
  simp only [boostU, P4.add]
  ext <;> simp only [] <;> ring

theorem boostU_zero (ux uy uz g v : ℝ) : boostU ux uy uz g v ⟨0, 0, 0, 0⟩ = ⟨0, 0, 0, 0⟩ := by
  simp [boostU]

theorem boostU_comp {ux uy uz g v g' w g'' u : ℝ} (hu : ux * ux + uy * uy + uz * uz = 1) (h1 : g' * g * (1 + v * w) = g'') (h2 : g' * g * (v + w) = g'' * u)
    (p : P4) : boostU ux uy uz g' w (boostU ux uy uz g v p) = boostU ux uy uz g'' u p := by
  simp only [boostU]
  obtain ⟨a, ha⟩ : ∃ a, p.x * ux + p.y * uy + p.z * uz = a := ⟨_, rfl⟩
  rw [ha]
  obtain ⟨A, hA⟩ : ∃ A, (g - 1) * a + g * p.E * v = A := ⟨_, rfl⟩
  rw [hA]
  have e1 : (p.x + A * ux) * ux + (p.y + A * uy) * uy + (p.z + A * uz) * uz = a + A := by
    rw [← ha]; linear_combination A * hu
  rw [e1]
  have e2 : A + ((g' - 1) * (a + A) + g' * (g * (p.E + v * a)) * w) = (g'' - 1) * a + g'' * p.E * u := by
    rw [← hA]
    linear_combination a * h1 + p.E * h2
  have e3 : g' * (g * (p.E + v * a) + w * (a + A)) = g'' * (p.E + u * a) := by
    rw [← hA]
    linear_combination p.E * h1 + a * h2
  ext <;> simp only []
  · linear_combination ux * e2
  · linear_combination uy * e2
  · linear_combination uz * e2
  · exact e3

theorem gamma_sq {v : ℝ} (hv : v * v < 1) : (1 / √(1 - v * v)) * (1 / √(1 - v * v)) * (1 - v * v) = 1 := by
  have h1 : 0 < 1 - v * v := by linarith
  have h2 := Real.mul_self_sqrt h1.le
  rw [div_mul_div_comm, one_mul, h2, one_div_mul_cancel h1.ne']

/-! ### Rotations -/

/-- A rotation around the unit vector `u`. -/
def rotateU (ux uy uz c s : ℝ) (p : P4) : P4 :=
  let pu := p.x * ux + p.y * uy + p.z * uz
  ⟨c * p.x + s * (p.z * uy - p.y * uz) + (1 - c) * pu * ux, c * p.y + s * (p.x * uz - p.z * ux) + (1 - c) * pu * uy,
    c * p.z + s * (p.y * ux - p.x * uy) + (1 - c) * pu * uz, p.E⟩

theorem rotateP_eq (nx ny nz v : ℝ) (p : P4) : rotateP nx ny nz v p =
    rotateU (nx / √(nx * nx + ny * ny + nz * nz)) (ny / √(nx * nx + ny * ny + nz * nz)) (nz / √(nx * nx + ny * ny + nz * nz)) (Real.cos v) (Real.sin v) p := by
  simp only [rotateP, rotateU]
  generalize √(nx * nx + ny * ny + nz * nz) = r
  ext <;> simp only [] <;> ring

theorem rotateU_dot {ux uy uz c s : ℝ} (hu : ux * ux + uy * uy + uz * uz = 1) (hc : c * c + s * s = 1) (p q : P4) :
    (rotateU ux uy uz c s p).Dot (rotateU ux uy uz c s q) = p.Dot q := by
  simp only [rotateU, P4.Dot]
  linear_combination ((-1) * (p.x * ux + p.y * uy + p.z * uz) * (q.x * ux + q.y * uy + q.z * uz) * (1 - c) * (1 - c) - (p.x * q.x + p.y * q.y + p.z * q.z) * s * s) * hu
    + ((p.x * ux + p.y * uy + p.z * uz) * (q.x * ux + q.y * uy + q.z * uz) - (p.x * q.x + p.y * q.y + p.z * q.z)) * hc

theorem rotateU_add (ux uy uz c s : ℝ) (p q : P4) : rotateU ux uy uz c s (p.add q) = (rotateU ux uy uz c s p).add (rotateU ux uy uz c s q) := by
  simp only [rotateU, P4.add]
  ext <;> simp only [] <;> ring

theorem rotateU_zero (ux uy uz c s : ℝ) : rotateU ux uy uz c s ⟨0, 0, 0, 0⟩ = ⟨0, 0, 0, 0⟩ := by
  simp [rotateU]

theorem rotateU_comp {ux uy uz : ℝ} (hu : ux * ux + uy * uy + uz * uz = 1) (c s c' s' : ℝ) (p : P4) :
    rotateU ux uy uz c' s' (rotateU ux uy uz c s p) = rotateU ux uy uz (c' * c - s' * s) (s' * c + c' * s) p := by
  simp only [rotateU]
  obtain ⟨a, ha⟩ : ∃ a, p.x * ux + p.y * uy + p.z * uz = a := ⟨_, rfl⟩
  rw [ha]
  have e1 : (c * p.x + s * (p.z * uy - p.y * uz) + (1 - c) * a * ux) * ux + (c * p.y + s * (p.x * uz - p.z * ux) + (1 - c) * a * uy) * uy +
      (c * p.z + s * (p.y * ux - p.x * uy) + (1 - c) * a * uz) * uz = a := by
    linear_combination c * ha + (1 - c) * a * hu
  rw [e1]
  ext <;> simp only []
  · linear_combination (s' * s * ux) * ha - (s' * s * p.x) * hu
  · linear_combination (s' * s * uy) * ha - (s' * s * p.y) * hu
  · linear_combination (s' * s * uz) * ha - (s' * s * p.z) * hu

end AmpGen.Kinematics
