import Verif.Kinematics.Lemmas
/-
Permutations of particles, and the scalar product in the rest frame.
-/
namespace AmpGen.Kinematics

theorem momentum_set4 (e : Event) (i : Nat) (p : Nat → ℝ) (j : Nat) :
    momentum (e.set4 i p) j = if j = i then ⟨p 0, p 1, p 2, p 3⟩ else momentum e j := by
  unfold Event.set4
  rw [show List.range 4 = [0, 1, 2, 3] from rfl]
  simp only [List.foldl_cons, List.foldl_nil]
  rw [momentum_set _ _ _ 3 (by omega), momentum_set _ _ _ 2 (by omega), momentum_set _ _ _ 1 (by omega), momentum_set _ _ _ 0 (by omega)]
  by_cases h : j = i
  · simp [h]
  · simp only [h, if_false]

theorem set4_size (e : Event) (i : Nat) (p : Nat → ℝ) : (e.set4 i p).size = e.size := by
  unfold Event.set4; refine loop_size _ ?_ _ _; intro _ _; rfl

theorem momentum_swap (e : Event) (i j k : Nat) :
    momentum (e.swap i j) k = if k = i then momentum e j else if k = j then momentum e i else momentum e k := by
  unfold Event.swap
  simp only []
  rw [momentum_set4, momentum_set4]
  rfl

theorem swap_size (e : Event) (i j : Nat) : (e.swap i j).size = e.size := by
  unfold Event.swap; simp only []; rw [set4_size, set4_size]

theorem reorder_fold (src : Event) (l : List (Nat × Nat)) (e : Event) (k : Nat) :
    momentum (l.foldl (fun (e : Event) (a : Nat × Nat) => e.set4 a.1 (fun k => src.data (4 * a.2 + k))) e) k =
      match l.reverse.find? (fun a => a.1 = k) with
      | some a => momentum src a.2
      | none => momentum e k := by
  induction l generalizing e with
  | nil => rfl
  | cons a l ih =>
    rw [List.foldl_cons, ih, List.reverse_cons, List.find?_append]
    cases h : l.reverse.find? (fun a => a.1 = k) with
    | some b => rfl
    | none =>
      simp only [Option.none_or, List.find?_cons, List.find?_nil]
      rw [momentum_set4]
      by_cases h' : a.1 = k
      · simp [h', momentum]
      · simp [h', Ne.symm h']

theorem reorder_size (e : Event) (l : List Nat) : (e.reorder l).size = e.size := by
  unfold Event.reorder
  generalize l.zipIdx = L
  have : ∀ (L : List (Nat × Nat)) (e' : Event), (L.foldl (fun (e' : Event) (a : Nat × Nat) => e'.set4 a.1 (fun k => e.data (4 * a.2 + k))) e').size = e'.size := by
    intro L
    induction L with
    | nil => intro _; rfl
    | cons a L ih => intro e'; rw [List.foldl_cons, ih, set4_size]
  exact this L e

theorem momentum_reorder (e : Event) (l : List Nat) (hl : l.Nodup) (i : Nat) (hi : i < l.length) : momentum (e.reorder l) l[i] = momentum e i := by
  unfold Event.reorder
  rw [reorder_fold]
  have h1 : (l.zipIdx.reverse.find? fun a => a.1 = l[i]) = some (l[i], i) := by
    rw [List.find?_eq_some_iff_append]
    refine ⟨by simp, ?_⟩
    have hm : (l[i], i) ∈ l.zipIdx.reverse := by
      rw [List.mem_reverse]
      exact List.mem_zipIdx_iff_getElem?.mpr (List.getElem?_eq_getElem hi)
    obtain ⟨as, bs, hab⟩ := List.append_of_mem hm
    refine ⟨as, bs, hab, fun a ha => ?_⟩
    have h2 : (l.zipIdx.reverse.map Prod.fst).Nodup := by
      rw [List.map_reverse, List.nodup_reverse]
      rw [List.zipIdx_map_fst]
      exact hl
    rw [hab, List.map_append, List.map_cons] at h2
    have h3 := (List.nodup_append.mp h2).2.2 a.1 (List.mem_map_of_mem ha) l[i] List.mem_cons_self
    simpa using h3
  rw [h1]

theorem momentum_reorder_other (e : Event) (l : List Nat) (k : Nat) (hk : k ∉ l) : momentum (e.reorder l) k = momentum e k := by
  unfold Event.reorder
  rw [reorder_fold]
  have h1 : (l.zipIdx.reverse.find? fun a => a.1 = k) = none := by
    rw [List.find?_eq_none]
    intro a ha
    rw [List.mem_reverse] at ha
    have := List.mem_zipIdx_iff_getElem?.mp ha
    have h2 := List.mem_of_getElem? this
    simp only [decide_eq_true_eq]
    intro h3
    exact hk (h3 ▸ h2)
  rw [h1]

/-! ### The scalar product in the rest frame -/

/-- A momentum multiplied by a number. -/
def P4.smul (t : ℝ) (p : P4) : P4 := ⟨t * p.x, t * p.y, t * p.z, t * p.E⟩

/-- The momentum of a massive particle: in its rest frame the scalar product is positive. -/
theorem dotProduct_self_nonneg (p X : P4) (hX : 0 < X.Dot X) : 0 ≤ dotProduct p p X := by
  unfold dotProduct
  rw [neg_add_eq_sub, sub_nonneg, le_div_iff₀ hX]
  simp only [P4.Dot] at hX ⊢
  have hE : 0 < X.E * X.E := by nlinarith [mul_self_nonneg X.x, mul_self_nonneg X.y, mul_self_nonneg X.z]
  have key : 0 ≤ (X.E * X.E) * ((p.E * X.E - p.z * X.z - p.y * X.y - p.x * X.x) * (p.E * X.E - p.z * X.z - p.y * X.y - p.x * X.x) -
      (p.E * p.E - p.z * p.z - p.y * p.y - p.x * p.x) * (X.E * X.E - X.z * X.z - X.y * X.y - X.x * X.x)) := by
    obtain ⟨wx, hwx⟩ : ∃ w, p.E * X.x - X.E * p.x = w := ⟨_, rfl⟩
    obtain ⟨wy, hwy⟩ : ∃ w, p.E * X.y - X.E * p.y = w := ⟨_, rfl⟩
    obtain ⟨wz, hwz⟩ : ∃ w, p.E * X.z - X.E * p.z = w := ⟨_, rfl⟩
    have h1 : (X.E * X.E) * ((p.E * X.E - p.z * X.z - p.y * X.y - p.x * X.x) * (p.E * X.E - p.z * X.z - p.y * X.y - p.x * X.x) -
      (p.E * p.E - p.z * p.z - p.y * p.y - p.x * p.x) * (X.E * X.E - X.z * X.z - X.y * X.y - X.x * X.x)) =
      (wx * wx + wy * wy + wz * wz) * (X.E * X.E - X.z * X.z - X.y * X.y - X.x * X.x) + (wx * X.x + wy * X.y + wz * X.z) * (wx * X.x + wy * X.y + wz * X.z) := by
      rw [← hwx, ← hwy, ← hwz]; ring
    rw [h1]
    have : 0 ≤ wx * wx + wy * wy + wz * wz := by nlinarith [mul_self_nonneg wx, mul_self_nonneg wy, mul_self_nonneg wz]
    have h3 := mul_nonneg this hX.le
    have h4 := mul_self_nonneg (wx * X.x + wy * X.y + wz * X.z)
    linarith
  have := nonneg_of_mul_nonneg_right key hE
  linarith

theorem dotProduct_cauchy (p q X : P4) (hX : 0 < X.Dot X) : dotProduct p q X * dotProduct p q X ≤ dotProduct p p X * dotProduct q q X := by
  obtain ⟨a, ha⟩ : ∃ a, dotProduct p p X = a := ⟨_, rfl⟩
  obtain ⟨b, hb⟩ : ∃ b, dotProduct p q X = b := ⟨_, rfl⟩
  obtain ⟨c, hc⟩ : ∃ c, dotProduct q q X = c := ⟨_, rfl⟩
  have hq : ∀ t : ℝ, 0 ≤ a + 2 * t * b + t * t * c := by
    intro t
    have h1 := dotProduct_self_nonneg (p.add (q.smul t)) X hX
    have h2 : dotProduct (p.add (q.smul t)) (p.add (q.smul t)) X = a + 2 * t * b + t * t * c := by
      rw [← ha, ← hb, ← hc]
      simp only [dotProduct]
      have e1 : (p.add (q.smul t)).Dot (p.add (q.smul t)) = p.Dot p + 2 * t * p.Dot q + t * t * q.Dot q := by simp only [P4.Dot, P4.add, P4.smul]; ring
      have e2 : (p.add (q.smul t)).Dot X = p.Dot X + t * q.Dot X := by simp only [P4.Dot, P4.add, P4.smul]; ring
      rw [e1, e2]
      ring
    rw [h2] at h1; exact h1
  have hc0 : 0 ≤ c := by rw [← hc]; exact dotProduct_self_nonneg q X hX
  have ha0 : 0 ≤ a := by rw [← ha]; exact dotProduct_self_nonneg p X hX
  rw [ha, hb, hc]
  rcases hc0.eq_or_lt with h | h
  · subst h
    by_cases hb0 : b = 0
    · rw [hb0]; simp
    · have h1 := hq (-(a + 1) / (2 * b))
      have h2 : 2 * (-(a + 1) / (2 * b)) * b = -(a + 1) := by field_simp
      rw [h2] at h1; linarith
  · have h1 := hq (-b / c)
    have h2 : a + 2 * (-b / c) * b + -b / c * (-b / c) * c = (a * c - b * b) / c := by field_simp; ring
    rw [h2] at h1
    have := (div_nonneg_iff.mp h1)
    rcases this with h3 | h3
    · linarith [h3.1]
    · linarith [h3.2]

end AmpGen.Kinematics
