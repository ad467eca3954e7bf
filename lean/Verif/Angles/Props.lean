import Verif.Angles.Lemmas
/-
C150 (angles between decay planes).
-/
namespace AmpGen.Angles

open AmpGen.Kinematics (Event P4 V3 particles boost rotate)

/-- An event with two decay planes: in units of the masses, two particles in a plane, and two in another one. -/
def sample : Event :=
  ⟨16, fun i => ([1, 1, 0, 2, -1, 1, 0, 2, 0, -1, 1, 2, 0, -1, -1, 2] : List ℝ).getD i 0⟩

theorem sample_massive : Massive (four sample 0 1 2 3) := by
  simp [Massive, four, sum4, pFromEvent, sample, P4.Dot]
  norm_num

theorem sample_rest (n : Nat) : atRest sample 0 1 2 3 n = Vect (pFromEvent sample n) := by
  have h : negBoostVector (four sample 0 1 2 3) = ⟨0, 0, 0⟩ := by
    simp [negBoostVector, four, sum4, pFromEvent, sample]
  unfold atRest
  rw [h]
  simp [Boost, Vect, Dot]

theorem sample_planes : Plane (atRest sample 0 1 2 3 0) (atRest sample 0 1 2 3 1) ∧
    Plane (atRest sample 0 1 2 3 2) (atRest sample 0 1 2 3 3) := by
  simp only [sample_rest]
  constructor <;> simp [Plane, Cross, Vect, pFromEvent, sample] <;> norm_num

/-- The angle returned for two pairs of particles is the one from the plane of the first pair to the plane of the second in their common rest frame, and the
only one between minus and plus one half turn. -/
theorem dihedral_angle (e : Event) (i j k w : Nat) (hM : Massive (four e i j k w))
    (h1 : Plane (atRest e i j k w i) (atRest e i j k w j)) (h2 : Plane (atRest e i j k w k) (atRest e i j k w w)) :
    ∃ θ, phi e i j k w = some θ ∧ -Real.pi < θ ∧ θ ≤ Real.pi ∧
      Dihedral (atRest e i j k w i) (atRest e i j k w j) (atRest e i j k w k) (atRest e i j k w w) θ ∧
      ∀ θ', -Real.pi < θ' → θ' ≤ Real.pi →
        Dihedral (atRest e i j k w i) (atRest e i j k w j) (atRest e i j k w k) (atRest e i j k w w) θ' → θ' = θ := by
  obtain ⟨hx, hy, hz⟩ := rest_sum hM _ _ _ _ rfl
  obtain ⟨θ, ht, hl, hu, hd⟩ := angle_dihedral (atRest e i j k w i) (atRest e i j k w j) (atRest e i j k w k) (atRest e i j k w w)
    hx hy hz h1 h2
  refine ⟨θ, ht, hl, hu, hd, fun θ' hl' hu' hd' => ?_⟩
  have hm := Real.sqrt_pos.mpr (dot_self_pos h1)
  have hn := Real.sqrt_pos.mpr (dot_self_pos h2)
  have hs : 0 < √(Dot (Add (atRest e i j k w k) (atRest e i j k w w)) (Add (atRest e i j k w k) (atRest e i j k w w))) := by
    apply Real.sqrt_pos.mpr
    apply dot_self_pos
    intro h0
    apply h2
    have e1 := congrArg V3.x h0
    have e2 := congrArg V3.y h0
    have e3 := congrArg V3.z h0
    simp only [Add] at e1 e2 e3
    have f1 : (atRest e i j k w k).x = -(atRest e i j k w w).x := by linarith
    have f2 : (atRest e i j k w k).y = -(atRest e i j k w w).y := by linarith
    have f3 : (atRest e i j k w k).z = -(atRest e i j k w w).z := by linarith
    simp only [Cross, f1, f2, f3, V3.mk.injEq]
    refine ⟨by ring, by ring, by ring⟩
  have hc : Real.cos θ' = Real.cos θ := by
    have := hd'.1.trans hd.1.symm
    exact mul_left_cancel₀ (mul_pos hm hn).ne' this
  have hsn : Real.sin θ' = Real.sin θ := by
    have := hd'.2.trans hd.2.symm
    exact mul_left_cancel₀ (mul_pos (mul_pos hm hn) hs).ne' this
  have ha : ((θ' : ℝ) : Real.Angle) = (θ : ℝ) := Real.Angle.cos_sin_inj hc hsn
  have := congrArg Real.Angle.toReal ha
  rwa [Real.Angle.toReal_coe_eq_self_iff.mpr ⟨hl', hu'⟩, Real.Angle.toReal_coe_eq_self_iff.mpr ⟨hl, hu⟩] at this

example : Massive (four sample 0 1 2 3) ∧ Plane (atRest sample 0 1 2 3 0) (atRest sample 0 1 2 3 1) ∧
    Plane (atRest sample 0 1 2 3 2) (atRest sample 0 1 2 3 3) := ⟨sample_massive, sample_planes⟩

/-- Rotating or boosting an event does not change the angle. -/
theorem dihedral_frame (e : Event) (i j k w : Nat) (hM : Massive (four e i j k w)) (hi : ∀ n ∈ [i, j, k, w], n < particles e)
    (nx ny nz v : ℝ) (hn : ¬(nx = 0 ∧ ny = 0 ∧ nz = 0)) :
    phi (rotate e nx ny nz v) i j k w = phi e i j k w ∧ (|v| < 1 → phi (boost e nx ny nz v) i j k w = phi e i j k w) := by
  constructor
  · refine phi_congr e _ i j k w (Kinematics.rotateP nx ny nz v) (fun p q => Kinematics.rotateP_dot hn v p q) ?_ ?_ hM hM.1 ?_
    · intro p q; rw [Kinematics.rotateP_eq, Kinematics.rotateP_eq, Kinematics.rotateP_eq, Kinematics.rotateU_add]
    · intro p q r s
      rw [Kinematics.rotateP_eq, Kinematics.rotateP_eq, Kinematics.rotateP_eq, Kinematics.rotateP_eq]
      refine eps_rotateU (Kinematics.unit_normed hn rfl) ?_ p q r s
      have := Real.cos_sq_add_sin_sq v
      rw [← sq, ← sq]; exact this
    · intro n hn'
      have := Kinematics.momentum_rotate e nx ny nz v n
      rw [if_pos (hi n hn')] at this
      exact this
  · intro hv
    have hv2 : v * v < 1 := by rw [← abs_mul_abs_self]; nlinarith [abs_nonneg v]
    refine phi_congr e _ i j k w (Kinematics.boostP nx ny nz v) (fun p q => Kinematics.boostP_dot hn hv p q) ?_ ?_ hM ?_ ?_
    · intro p q; rw [Kinematics.boostP_eq, Kinematics.boostP_eq, Kinematics.boostP_eq, Kinematics.boostU_add]
    · intro p q r s
      rw [Kinematics.boostP_eq, Kinematics.boostP_eq, Kinematics.boostP_eq, Kinematics.boostP_eq]
      exact eps_boostU (Kinematics.unit_normed hn rfl) (Kinematics.gamma_sq hv2) p q r s
    · rw [Kinematics.boostP_eq]
      have hu := Kinematics.unit_normed hn rfl
      obtain ⟨hE, hM2⟩ := hM
      generalize four e i j k w = P at *
      generalize nx / √(nx * nx + ny * ny + nz * nz) = ux at *
      generalize ny / √(nx * nx + ny * ny + nz * nz) = uy at *
      generalize nz / √(nx * nx + ny * ny + nz * nz) = uz at *
      have hg : 0 < 1 / √(1 - v * v) := one_div_pos.mpr (Real.sqrt_pos.mpr (by linarith))
      show 0 < (1 / √(1 - v * v)) * (P.E + v * (P.x * ux + P.y * uy + P.z * uz))
      refine mul_pos hg ?_
      have hM2' : 0 < P.E * P.E - P.z * P.z - P.y * P.y - P.x * P.x := hM2
      have hcs : (P.x * ux + P.y * uy + P.z * uz) ^ 2 ≤ P.x * P.x + P.y * P.y + P.z * P.z := by
        have h1 : (P.x * P.x + P.y * P.y + P.z * P.z) * (ux * ux + uy * uy + uz * uz) - (P.x * ux + P.y * uy + P.z * uz) ^ 2 =
          (P.x * uy - P.y * ux) ^ 2 + (P.x * uz - P.z * ux) ^ 2 + (P.y * uz - P.z * uy) ^ 2 := by ring
        rw [hu, mul_one] at h1
        have : 0 ≤ (P.x * uy - P.y * ux) ^ 2 + (P.x * uz - P.z * ux) ^ 2 + (P.y * uz - P.z * uy) ^ 2 := by positivity
        linarith
      have hk : |P.x * ux + P.y * uy + P.z * uz| < P.E := by
        apply abs_lt_of_sq_lt_sq _ hE.le
        nlinarith
      have h3 : |v * (P.x * ux + P.y * uy + P.z * uz)| < P.E := by
        rw [abs_mul]
        calc |v| * |P.x * ux + P.y * uy + P.z * uz| ≤ 1 * |P.x * ux + P.y * uy + P.z * uz| :=
              mul_le_mul_of_nonneg_right hv.le (abs_nonneg _)
          _ < P.E := by rw [one_mul]; exact hk
      have := (abs_lt.mp h3).1
      linarith
    · intro n hn'
      have := Kinematics.momentum_boost e nx ny nz v n
      rw [if_pos (hi n hn')] at this
      exact this

example : ∀ n ∈ [0, 1, 2, 3], n < particles sample := by decide

/-! ### Symmetries -/

theorem plane_sum {c d : V3} (h2 : Plane c d) : Add c d ≠ ⟨0, 0, 0⟩ := by
  intro h0
  apply h2
  have e1 := congrArg V3.x h0
  have e2 := congrArg V3.y h0
  have e3 := congrArg V3.z h0
  simp only [Add] at e1 e2 e3
  have f1 : c.x = -d.x := by linarith
  have f2 : c.y = -d.y := by linarith
  have f3 : c.z = -d.z := by linarith
  simp only [Cross, f1, f2, f3, V3.mk.injEq]
  refine ⟨by ring, by ring, by ring⟩

theorem mirror_momentum (e : Event) (n : Nat) : pFromEvent (mirror e) n =
    ⟨-(pFromEvent e n).x, -(pFromEvent e n).y, -(pFromEvent e n).z, (pFromEvent e n).E⟩ := by
  unfold pFromEvent mirror
  have h0 : ¬ (4 * n % 4 = 3) := by omega
  have h1 : ¬ ((4 * n + 1) % 4 = 3) := by omega
  have h2 : ¬ ((4 * n + 2) % 4 = 3) := by omega
  have h3 : (4 * n + 3) % 4 = 3 := by omega
  simp only [if_neg h0, if_neg h1, if_neg h2, if_pos h3]

theorem mirror_rest (e : Event) (i j k w n : Nat) : atRest (mirror e) i j k w n =
    ⟨-(atRest e i j k w n).x, -(atRest e i j k w n).y, -(atRest e i j k w n).z⟩ := by
  have hf : four (mirror e) i j k w = ⟨-(four e i j k w).x, -(four e i j k w).y, -(four e i j k w).z, (four e i j k w).E⟩ := by
    unfold four
    rw [mirror_momentum, mirror_momentum, mirror_momentum, mirror_momentum]
    simp only [sum4, P4.mk.injEq]
    refine ⟨by ring, by ring, by ring, trivial⟩
  unfold atRest
  rw [hf, mirror_momentum]
  generalize four e i j k w = P
  generalize pFromEvent e n = p
  have hb : negBoostVector ⟨-P.x, -P.y, -P.z, P.E⟩ = ⟨-(negBoostVector P).x, -(negBoostVector P).y, -(negBoostVector P).z⟩ := by
    simp only [negBoostVector, V3.mk.injEq]
    refine ⟨by ring, by ring, by ring⟩
  rw [hb]
  generalize negBoostVector P = b
  simp only [Boost, Vect, Dot, neg_mul_neg, V3.mk.injEq]
  refine ⟨by ring_nf, by ring_nf, by ring_nf⟩

/-- In the mirrored event the angle has the opposite sign: the sine of the angle is odd under parity, and its cosine even. -/
theorem dihedral_parity (e : Event) (i j k w : Nat) (hM : Massive (four e i j k w))
    (h1 : Plane (atRest e i j k w i) (atRest e i j k w j)) (h2 : Plane (atRest e i j k w k) (atRest e i j k w w)) :
    ∃ θ, phi e i j k w = some θ ∧ phi (mirror e) i j k w = some (if θ = Real.pi then Real.pi else -θ) := by
  obtain ⟨θ, ht, hl, hu, hd, _⟩ := dihedral_angle e i j k w hM h1 h2
  refine ⟨θ, ht, ?_⟩
  have hMm : Massive (four (mirror e) i j k w) := by
    have hf : four (mirror e) i j k w = ⟨-(four e i j k w).x, -(four e i j k w).y, -(four e i j k w).z, (four e i j k w).E⟩ := by
      unfold four
      rw [mirror_momentum, mirror_momentum, mirror_momentum, mirror_momentum]
      simp only [sum4, P4.mk.injEq]
      refine ⟨by ring, by ring, by ring, trivial⟩
    rw [hf]
    refine ⟨hM.1, ?_⟩
    have := hM.2
    simp only [P4.Dot, neg_mul_neg] at this ⊢
    exact this
  have cr : ∀ p q : V3, Cross ⟨-p.x, -p.y, -p.z⟩ ⟨-q.x, -q.y, -q.z⟩ = Cross p q := by
    intro p q; simp only [Cross, neg_mul_neg]
  have h1' : Plane (atRest (mirror e) i j k w i) (atRest (mirror e) i j k w j) := by
    unfold Plane; rw [mirror_rest, mirror_rest, cr]; exact h1
  have h2' : Plane (atRest (mirror e) i j k w k) (atRest (mirror e) i j k w w) := by
    unfold Plane; rw [mirror_rest, mirror_rest, cr]; exact h2
  obtain ⟨θ', ht', _, _, _, hun⟩ := dihedral_angle (mirror e) i j k w hMm h1' h2'
  rw [ht']
  congr 1
  have hkey : ∀ x, Real.cos x = Real.cos θ → Real.sin x = -Real.sin θ → Dihedral (atRest (mirror e) i j k w i)
      (atRest (mirror e) i j k w j) (atRest (mirror e) i j k w k) (atRest (mirror e) i j k w w) x := by
    intro x hc hs
    unfold Dihedral
    rw [mirror_rest, mirror_rest, mirror_rest, mirror_rest, cr, cr, hc, hs]
    have ha : ∀ p q : V3, Dot (Add ⟨-p.x, -p.y, -p.z⟩ ⟨-q.x, -q.y, -q.z⟩) (Add ⟨-p.x, -p.y, -p.z⟩ ⟨-q.x, -q.y, -q.z⟩) =
        Dot (Add p q) (Add p q) := by intro p q; simp only [Dot, Add]; ring
    have hb : ∀ p q r : V3, Dot (Add ⟨-p.x, -p.y, -p.z⟩ ⟨-q.x, -q.y, -q.z⟩) r = -Dot (Add p q) r := by
      intro p q r; simp only [Dot, Add]; ring
    rw [ha, hb, mul_neg, hd.2]
    exact ⟨hd.1, rfl⟩
  split
  · next h =>
    refine (hun Real.pi (by linarith [Real.pi_pos]) le_rfl (hkey _ (by rw [h]) (by rw [h]; simp))).symm
  · next h =>
    refine (hun (-θ) ?_ (by linarith) (hkey _ (Real.cos_neg θ) (Real.sin_neg θ))).symm
    have : θ < Real.pi := lt_of_le_of_ne hu h
    linarith

theorem four_swap (e : Event) (i j k w : Nat) : four e j i k w = four e i j k w ∧ four e k w i j = four e i j k w := by
  unfold four
  simp only [sum4, P4.mk.injEq]
  refine ⟨⟨by ring, by ring, by ring, by ring⟩, ⟨by ring, by ring, by ring, by ring⟩⟩

/-- Exchanging the particles of the first pair turns the angle by one half turn; exchanging the pairs does not change it. -/
theorem dihedral_exchange (e : Event) (i j k w : Nat) (hM : Massive (four e i j k w))
    (h1 : Plane (atRest e i j k w i) (atRest e i j k w j)) (h2 : Plane (atRest e i j k w k) (atRest e i j k w w)) :
    ∃ θ θ', phi e i j k w = some θ ∧ phi e j i k w = some θ' ∧ Real.cos θ' = -Real.cos θ ∧ Real.sin θ' = -Real.sin θ ∧
      phi e k w i j = some θ := by
  obtain ⟨θ, ht, hl, hu, hd, _⟩ := dihedral_angle e i j k w hM h1 h2
  obtain ⟨hx, hy, hz⟩ := rest_sum hM (pFromEvent e i) (pFromEvent e j) (pFromEvent e k) (pFromEvent e w) rfl
  have r1 : ∀ n, atRest e j i k w n = atRest e i j k w n := fun n => by unfold atRest; rw [(four_swap e i j k w).1]
  have r2 : ∀ n, atRest e k w i j n = atRest e i j k w n := fun n => by unfold atRest; rw [(four_swap e i j k w).2]
  have hneg : ∀ p q : V3, Cross q p = ⟨-(Cross p q).x, -(Cross p q).y, -(Cross p q).z⟩ := by
    intro p q; simp only [Cross, V3.mk.injEq]; refine ⟨by ring, by ring, by ring⟩
  have h1' : Plane (atRest e i j k w j) (atRest e i j k w i) := by
    intro h0
    apply h1
    rw [hneg, h0]; simp
  obtain ⟨θ', ht', _, _, hd', _⟩ := dihedral_angle e j i k w (by rw [(four_swap e i j k w).1]; exact hM)
    (by rw [r1, r1]; exact h1') (by rw [r1, r1]; exact h2)
  obtain ⟨θ'', ht'', hl'', hu'', hd'', hun''⟩ := dihedral_angle e k w i j (by rw [(four_swap e i j k w).2]; exact hM)
    (by rw [r2, r2]; exact h2) (by rw [r2, r2]; exact h1)
  simp only [r1] at hd'
  simp only [r2] at hd'' hun''
  have hx' : (atRest e i j k w i).x + (atRest e i j k w j).x + (atRest e i j k w k).x + (atRest e i j k w w).x = 0 := hx
  have hy' : (atRest e i j k w i).y + (atRest e i j k w j).y + (atRest e i j k w k).y + (atRest e i j k w w).y = 0 := hy
  have hz' : (atRest e i j k w i).z + (atRest e i j k w j).z + (atRest e i j k w k).z + (atRest e i j k w w).z = 0 := hz
  have hsum := plane_sum h2
  refine ⟨θ, θ', ht, ht', ?_⟩
  rw [ht'']
  generalize atRest e i j k w i = a at *
  generalize atRest e i j k w j = b at *
  generalize atRest e i j k w k = c at *
  generalize atRest e i j k w w = d at *
  have hm := Real.sqrt_pos.mpr (dot_self_pos h1)
  have hn := Real.sqrt_pos.mpr (dot_self_pos h2)
  have hr := Real.sqrt_pos.mpr (dot_self_pos hsum)
  have e1 : Dot (Cross b a) (Cross b a) = Dot (Cross a b) (Cross a b) := by simp only [Dot, Cross]; ring
  have e2 : Dot (Cross b a) (Cross c d) = -Dot (Cross a b) (Cross c d) := by simp only [Dot, Cross]; ring
  have e3 : Dot (Add c d) (Cross (Cross b a) (Cross c d)) = -Dot (Add c d) (Cross (Cross a b) (Cross c d)) := by
    simp only [Dot, Cross]; ring
  obtain ⟨c1, s1⟩ := hd
  obtain ⟨c2, s2⟩ := hd'
  rw [e1, e2, ← c1] at c2
  rw [e1, e3, ← s1] at s2
  refine ⟨?_, ?_, ?_⟩
  · apply mul_left_cancel₀ (mul_pos hm hn).ne'
    rw [c2]; ring
  · apply mul_left_cancel₀ (mul_pos (mul_pos hm hn) hr).ne'
    rw [s2]; ring
  · congr 1
    symm
    apply hun'' θ hl hu
    have f1 : Dot (Cross c d) (Cross a b) = Dot (Cross a b) (Cross c d) := by simp only [Dot]; ring
    have hcx : c.x = -(a.x + b.x) - d.x := by linarith
    have hcy : c.y = -(a.y + b.y) - d.y := by linarith
    have hcz : c.z = -(a.z + b.z) - d.z := by linarith
    have f2 : Dot (Add a b) (Add a b) = Dot (Add c d) (Add c d) := by
      simp only [Dot, Add, hcx, hcy, hcz]; ring
    have f3 : Dot (Add a b) (Cross (Cross c d) (Cross a b)) = Dot (Add c d) (Cross (Cross a b) (Cross c d)) := by
      generalize Cross a b = u
      generalize Cross c d = v
      simp only [Dot, Add, Cross, hcx, hcy, hcz]; ring
    unfold Dihedral
    rw [f1, f2, f3, mul_comm (√(Dot (Cross c d) (Cross c d)))]
    exact ⟨c1, s1⟩

/-! ### The functions without arguments -/

/-- The acoplanarity is the magnitude of the angle between the first two and the last two particles, and differs from the magnitude of `PHI`, which takes the
last two in the opposite order, from one half turn. -/
theorem acoplanarity_angle (e : Event) (hM : Massive (four e 0 1 2 3))
    (h1 : Plane (atRest e 0 1 2 3 0) (atRest e 0 1 2 3 1)) (h2 : Plane (atRest e 0 1 2 3 2) (atRest e 0 1 2 3 3)) :
    ∃ θ Φ, phi e 0 1 2 3 = some θ ∧ PHI e = some Φ ∧ acoplanarity e = |θ| ∧ acoplanarity e = Real.pi - |Φ| := by
  obtain ⟨θ, ht, hl, hu, hd, _⟩ := dihedral_angle e 0 1 2 3 hM h1 h2
  have hf : four e 0 1 3 2 = four e 0 1 2 3 := by
    unfold four
    simp only [sum4, P4.mk.injEq]
    refine ⟨by ring, by ring, by ring, by ring⟩
  have r : ∀ n, atRest e 0 1 3 2 n = atRest e 0 1 2 3 n := fun n => by unfold atRest; rw [hf]
  have h2' : Plane (atRest e 0 1 2 3 3) (atRest e 0 1 2 3 2) := by
    intro h0
    apply h2
    have e1 := congrArg V3.x h0
    have e2 := congrArg V3.y h0
    have e3 := congrArg V3.z h0
    simp only [Cross] at e1 e2 e3
    simp only [Cross, V3.mk.injEq]
    refine ⟨by linarith, by linarith, by linarith⟩
  obtain ⟨Φ, hp, hl', hu', hd', _⟩ := dihedral_angle e 0 1 3 2 (by rw [hf]; exact hM) (by rw [r, r]; exact h1)
    (by rw [r, r]; exact h2')
  simp only [r] at hd'
  have hac : acoplanarity e = Real.arccos (Real.cos θ) := by
    have : acoplanarity e = Real.arccos (Dot (Unit (Cross (atRest e 0 1 2 3 0) (atRest e 0 1 2 3 1)))
        (Unit (Cross (atRest e 0 1 2 3 2) (atRest e 0 1 2 3 3)))) := rfl
    rw [this]
    congr 1
    have hm := dot_self_pos h1
    have hn := dot_self_pos h2
    have h3 := hd.1
    rw [unit_eq, unit_eq]
    generalize Cross (atRest e 0 1 2 3 0) (atRest e 0 1 2 3 1) = u at *
    generalize Cross (atRest e 0 1 2 3 2) (atRest e 0 1 2 3 3) = v at *
    have hm' := Real.sqrt_pos.mpr hm
    have hn' := Real.sqrt_pos.mpr hn
    unfold tot
    rw [if_pos hm, if_pos hn]
    have : Dot u v = u.x * v.x + u.y * v.y + u.z * v.z := rfl
    rw [this] at h3
    generalize √(Dot u u) = m at *
    generalize √(Dot v v) = n at *
    simp only [Dot]
    field_simp
    linear_combination -h3
  have habs : acoplanarity e = |θ| := by
    rw [hac]
    rcases le_total 0 θ with h | h
    · rw [abs_of_nonneg h, Real.arccos_cos h hu]
    · rw [abs_of_nonpos h, ← Real.cos_neg, Real.arccos_cos (by linarith) (by linarith)]
  refine ⟨θ, Φ, ht, by rw [PHI_eq]; exact hp, habs, ?_⟩
  have hcos : Real.cos Φ = -Real.cos θ := by
    have hm := Real.sqrt_pos.mpr (dot_self_pos h1)
    have hn := Real.sqrt_pos.mpr (dot_self_pos h2)
    have c1 := hd.1
    have c2 := hd'.1
    generalize atRest e 0 1 2 3 0 = a at *
    generalize atRest e 0 1 2 3 1 = b at *
    generalize atRest e 0 1 2 3 2 = c at *
    generalize atRest e 0 1 2 3 3 = d at *
    have e1 : Dot (Cross d c) (Cross d c) = Dot (Cross c d) (Cross c d) := by simp only [Dot, Cross]; ring
    have e2 : Dot (Cross a b) (Cross d c) = -Dot (Cross a b) (Cross c d) := by simp only [Dot, Cross]; ring
    rw [e1, e2, ← c1] at c2
    apply mul_left_cancel₀ (mul_pos hm hn).ne'
    rw [c2]; ring
  have h4 : Real.cos Φ = Real.cos |Φ| := (Real.cos_abs Φ).symm
  rw [hac, ← neg_neg (Real.cos θ), ← hcos, Real.arccos_neg, h4, Real.arccos_cos (abs_nonneg _) (abs_le.mpr ⟨hl'.le, hu'⟩)]

/-- If the momenta of the second pair are parallel at rest, there is no angle. -/
theorem no_dihedral (e : Event) (i j k w : Nat) (hM : Massive (four e i j k w))
    (h2 : ¬ Plane (atRest e i j k w k) (atRest e i j k w w)) : phi e i j k w = none := by
  obtain ⟨hx, hy, hz⟩ := rest_sum hM (pFromEvent e i) (pFromEvent e j) (pFromEvent e k) (pFromEvent e w) rfl
  have hx' : (atRest e i j k w i).x + (atRest e i j k w j).x + (atRest e i j k w k).x + (atRest e i j k w w).x = 0 := hx
  have hy' : (atRest e i j k w i).y + (atRest e i j k w j).y + (atRest e i j k w k).y + (atRest e i j k w w).y = 0 := hy
  have hz' : (atRest e i j k w i).z + (atRest e i j k w j).z + (atRest e i j k w k).z + (atRest e i j k w w).z = 0 := hz
  rw [phi_eq, angle_eq]
  generalize atRest e i j k w i = a at *
  generalize atRest e i j k w j = b at *
  generalize atRest e i j k w k = c at *
  generalize atRest e i j k w w = d at *
  have hcx : c.x = -(a.x + b.x) - d.x := by linarith
  have hcy : c.y = -(a.y + b.y) - d.y := by linarith
  have hcz : c.z = -(a.z + b.z) - d.z := by linarith
  have hwz : Dot (Cross d (Add a b)) (Cross d (Add a b)) = Dot (Cross c d) (Cross c d) := by
    simp only [Dot, Cross, Add, hcx, hcy, hcz]; ring
  have h0 : Cross c d = ⟨0, 0, 0⟩ := by
    by_contra h; exact h2 h
  have : √(Dot (Cross d (Add a b)) (Cross d (Add a b)) * tot (Dot (Add a b) (Add a b)) ^ 2) = 0 := by
    rw [hwz, h0]; simp [Dot]
  rw [if_pos this]

example : ∃ e : Event, Massive (four e 0 1 2 3) ∧ ¬ Plane (atRest e 0 1 2 3 2) (atRest e 0 1 2 3 3) := by
  refine ⟨⟨16, fun i => ([1, 1, 0, 2, -1, -1, 0, 2, 0, -1, 1, 2, 0, 1, -1, 2] : List ℝ).getD i 0⟩, ?_, ?_⟩
  · simp [Massive, four, sum4, pFromEvent, P4.Dot]
    norm_num
  · have h : negBoostVector (four ⟨16, fun i => ([1, 1, 0, 2, -1, -1, 0, 2, 0, -1, 1, 2, 0, 1, -1, 2] : List ℝ).getD i 0⟩ 0 1 2 3) =
        ⟨0, 0, 0⟩ := by
      simp [negBoostVector, four, sum4, pFromEvent]
    unfold atRest
    rw [h]
    simp [Plane, Cross, Boost, Vect, Dot, pFromEvent]

end AmpGen.Angles
