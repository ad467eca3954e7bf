import Verif.Helicity.Props
/-
C127: index strings that are the same for different particles; and examples for C126-C130.
-/
namespace AmpGen.Helicity
open Complex Spec
open AmpGen.Transform
open AmpGen.Polarisation (Mom Properties)
open AmpGen.Polarisation.Spec (OnShell)
open AmpGen.Wigner (wigner_d wigner_d_eq D wigner_D angCoordinates wigner_D_eq)

theorem d_one (z : ℝ) (h1 : -1 ≤ z) (h2 : z ≤ 1) : wigner_d z (2 / 2) (1 - 2 / 2) (1 - 2 / 2) = z := by
  have := wigner_d_eq z h1 h2 2 1 1 (by norm_num) (by norm_num)
  push_cast at this
  rw [this]
  have hc : AmpGen.Wigner.C z ^ 2 = (1 + z) / 2 := Real.sq_sqrt (by linarith)
  have hs : AmpGen.Wigner.S z ^ 2 = (1 - z) / 2 := Real.sq_sqrt (by linarith)
  simp [D, Finset.sum_range_succ]
  rw [hc, hs]
  ring

theorem d_zero (z : ℝ) (h1 : -1 ≤ z) (h2 : z ≤ 1) : wigner_d z (0 / 2) (0 - 0 / 2) (0 - 0 / 2) = 1 := by
  have := wigner_d_eq z h1 h2 0 0 0 (by norm_num) (by norm_num)
  push_cast at this
  rw [this]
  simp [D]

/-- The rotation function of a particle without spin. -/
theorem rotation_zero {F : TransformSequence} (hF : Good F) (p : Mom) (hp : 0 < act F.transforms p 0 * act F.transforms p 0 + act F.transforms p 1 * act F.transforms p 1) :
    rotation (some F) p (0 / 2) 0 (0 - 0) = some 1 := by
  have := rotD_eq hF rfl hp.ne' 0 0 0
  rw [show (0 : ℝ) - 0 = ((0 : ℕ) : ℝ) - ((0 : ℕ) : ℝ) / 2 by norm_num]
  rw [show rotation (some F) p (0 / 2) 0 (((0 : ℕ) : ℝ) - ((0 : ℕ) : ℝ) / 2) = rotation (some F) p (((0 : ℕ) : ℝ) / 2) (((0 : ℕ) : ℝ) - ((0 : ℕ) : ℝ) / 2) (((0 : ℕ) : ℝ) - ((0 : ℕ) : ℝ) / 2) by norm_num, this]
  unfold rotD
  obtain ⟨_, _, h1, h2⟩ := AmpGen.Wigner.direction (act F.transforms p 0) (act F.transforms p 1) (act F.transforms p 2) hp.ne'
  have := d_zero _ h1 h2
  simp only [Nat.cast_zero, sub_self, zpow_zero, one_mul]
  unfold len
  rw [this]
  simp

/-- The rotation function of a particle of spin one, between states without projection. -/
theorem rotation_one {F : TransformSequence} (hF : Good F) (p : Mom) (hp : 0 < act F.transforms p 0 * act F.transforms p 0 + act F.transforms p 1 * act F.transforms p 1) :
    rotation (some F) p (2 / 2) 0 (0 - 0) = some ((act F.transforms p 2 / len (act F.transforms p) : ℝ) : ℂ) := by
  have := rotD_eq hF rfl hp.ne' 2 1 1
  rw [show rotation (some F) p (2 / 2) 0 (0 - 0) = rotation (some F) p (((2 : ℕ) : ℝ) / 2) (((1 : ℕ) : ℝ) - ((2 : ℕ) : ℝ) / 2) (((1 : ℕ) : ℝ) - ((2 : ℕ) : ℝ) / 2) by norm_num, this]
  unfold rotD
  obtain ⟨_, _, h1, h2⟩ := AmpGen.Wigner.direction (act F.transforms p 0) (act F.transforms p 1) (act F.transforms p 2) hp.ne'
  have := d_one _ h1 h2
  simp only [sub_self, zpow_zero, one_mul]
  push_cast
  unfold len
  push_cast at this
  rw [this]
  push_cast
  rfl

/-- The angles of a momentum along `x`. -/
theorem angles_x {p : Mom} {c s f g : ℝ} (h : Angles p c s f g) (h1 : p 1 = 0) (h2 : p 2 = 0) (h0 : p 0 ≠ 0) : c = 0 ∧ s = 1 ∧ f = p 0 / |p 0| ∧ g = 0 := by
  have hl : len p = |p 0| := by
    unfold len
    rw [h1, h2, ← Real.sqrt_mul_self_eq_abs]
    congr 1
    ring
  have ha : |p 0| ≠ 0 := abs_ne_zero.2 h0
  obtain ⟨a1, a2, a3, a4, a5, a6⟩ := h
  rw [hl] at a4 a5 a6
  rw [h2] at a6
  rw [h1] at a5
  have hc : c = 0 := by
    rcases mul_eq_zero.1 a6.symm with h | h
    · exact absurd h ha
    · exact h
  have hs : s = 1 := by rw [hc] at a1; nlinarith
  subst hc hs
  refine ⟨rfl, rfl, ?_, ?_⟩
  · field_simp
    linarith
  · rcases mul_eq_zero.1 a5.symm with h | h
    · rw [mul_one] at h; exact absurd h ha
    · exact h

/-! ### Decays of a particle at rest to two particles, each of which decays to two pions -/

noncomputable def pion : Properties := ⟨0, 211, 8 / 5⟩
noncomputable def scalar : Properties := ⟨0, 9010221, 4⟩
noncomputable def vector : Properties := ⟨2, 113, 4⟩

noncomputable def resonance (pr : Properties) (i j : Nat) (x : ℝ) : Particle :=
  .two pr 0 0 (some [1, 0, 0]) (.stable pion i 0 ![x / 2, 6 / 5, 0, 5 / 2]) (.stable pion j 0 ![x / 2, -6 / 5, 0, 5 / 2])

noncomputable def cascade (i j k l : Nat) : Particle := .two scalar 0 0 (some [1, 0, 0]) (resonance scalar i j 3) (resonance vector k l (-3))

theorem sound_pion (i : Nat) (y : ℝ) (hy : y = 6 / 5 ∨ y = -6 / 5) (x : ℝ) (hx : x = 3 ∨ x = -3) : Sound (.stable pion i 0 ![x / 2, y, 0, 5 / 2]) := by
  refine ⟨by simp [pion], ⟨by simp [pion], by simp, ?_⟩, by simp [pion], by simp [pion, isPhoton], by simp [pion, isNeutrino]⟩
  rcases hx with rfl | rfl <;> rcases hy with rfl | rfl <;> simp [pion] <;> norm_num

theorem sound_resonance (pr : Properties) (h : pr = scalar ∨ pr = vector) (i j : Nat) (x : ℝ) (hx : x = 3 ∨ x = -3) : Sound (resonance pr i j x) := by
  refine ⟨sound_pion i _ (Or.inl rfl) x hx, sound_pion j _ (Or.inr rfl) x hx, [⟨1, 0, 0⟩], rfl, ?_⟩
  intro k hk
  simp only [List.mem_singleton] at hk
  subst hk
  rcases h with rfl | rfl
  · exact ⟨0, 0, 0, by simp, by simp, by simp, by simp [Particle.props, pion], by simp [Particle.props, pion], by simp [scalar]⟩
  · exact ⟨0, 0, 1, by simp, by simp, by simp [vector], by simp [Particle.props, pion], by simp [Particle.props, pion], by simp [vector]⟩

theorem sound_cascade (i j k l : Nat) : Sound (cascade i j k l) := by
  refine ⟨sound_resonance _ (Or.inl rfl) i j 3 (Or.inl rfl), sound_resonance _ (Or.inr rfl) k l (-3) (Or.inr rfl), [⟨1, 0, 0⟩], rfl, ?_⟩
  intro k hk
  simp only [List.mem_singleton] at hk
  subst hk
  exact ⟨0, 1, 0, by simp, by simp [resonance, Particle.props, vector], by simp, by simp [resonance, Particle.props, scalar], by simp [resonance, Particle.props, vector], by simp [scalar]⟩

theorem resonance_P (pr : Properties) (i j : Nat) (x : ℝ) : (resonance pr i j x).P = ![x, 0, 0, 5] := by
  show ![x / 2, 6 / 5, 0, 5 / 2] + ![x / 2, -6 / 5, 0, 5 / 2] = (![x, 0, 0, 5] : Mom)
  funext m
  fin_cases m <;> simp <;> norm_num

/-- The frames of the two resonances. -/
theorem resonance_frame (cfg : Config) (pr : Properties) (h : pr = scalar ∨ pr = vector) (i j : Nat) (x : ℝ) (hx : x = 3 ∨ x = -3) (sgn : ℤ) (hs : sgn = 1 ∨ sgn = -1) :
    ∃ F, frameOf cfg false (resonance pr i j x) (some .empty) sgn = some F ∧ Good F ∧ ∀ q, act F.transforms q = boostz (5 / 4) (turn sgn 0 1 (x / 3) 0 q) := by
  have hS := sound_resonance pr h i j x hx
  have hx2 : x * x = 9 := by rcases hx with rfl | rfl <;> norm_num
  obtain ⟨F, c, s, f, g, e1, G1, -, hA, e2⟩ := child_frame cfg hS Good.empty (sgn := sgn) (Or.inl (by rw [act_empty, resonance_P]; simp; rw [hx2]; norm_num)) hs
  rw [act_empty, resonance_P] at hA
  obtain ⟨rfl, rfl, rfl, rfl⟩ := angles_x hA (by simp) (by simp) (by rcases hx with rfl | rfl <;> simp)
  refine ⟨F, e1, G1, fun q => ?_⟩
  rw [e2, act_empty, act_empty, resonance_P]
  have hm : (inner (resonance pr i j x)).massSq = 4 * 4 := by
    rw [show inner (resonance pr i j x) = resonance pr i j x from rfl, (sound_massive _ hS).2.1, resonance_P]
    simp [msq]
    linarith
  rw [hm, Real.sqrt_mul_self (by norm_num)]
  have hf : x / |x| = x / 3 := by rcases hx with rfl | rfl <;> norm_num
  simp [hf]

/-- The transverse momentum of the pions in the frame of the resonance. -/
theorem pion_transverse {F : TransformSequence} {sgn : ℤ} (hs : sgn = 1 ∨ sgn = -1) {x : ℝ} (hx : x = 3 ∨ x = -3) (hF : ∀ q, act F.transforms q = boostz (5 / 4) (turn sgn 0 1 (x / 3) 0 q))
    (w y : ℝ) (hy : y = 6 / 5 ∨ y = -6 / 5) : act F.transforms ![w, y, 0, 5 / 2] 0 = 0 ∧ act F.transforms ![w, y, 0, 5 / 2] 1 * act F.transforms ![w, y, 0, 5 / 2] 1 = 36 / 25 := by
  rw [hF]
  rcases hs with rfl | rfl
  · unfold turn
    rw [if_pos rfl]
    rcases hx with rfl | rfl <;> rcases hy with rfl | rfl <;> simp [boostz, turnP] <;> norm_num
  · unfold turn
    rw [if_neg (by norm_num)]
    rcases hx with rfl | rfl <;> rcases hy with rfl | rfl <;> simp [boostz, turnM] <;> norm_num

theorem pion_axis {F : TransformSequence} {sgn : ℤ} {x : ℝ} (hF : ∀ q, act F.transforms q = boostz (5 / 4) (turn sgn 0 1 (x / 3) 0 q)) (w y : ℝ) :
    act F.transforms ![w, y, 0, 5 / 2] 2 = 5 / 4 * (x / 3 * w) - 15 / 8 := by
  rw [hF]
  have : √((5 / 4 : ℝ) * (5 / 4) - 1) = 3 / 4 := by
    rw [show (5 / 4 : ℝ) * (5 / 4) - 1 = 3 / 4 * (3 / 4) by norm_num, Real.sqrt_mul_self (by norm_num)]
  unfold turn
  split <;> simp [boostz, turnP, turnM, this] <;> norm_num

theorem pion_amplitude (cfg : Config) (i : Nat) (p : Mom) (F : Option TransformSequence) : stableAmplitude cfg pion 0 p F 0 = some 1 := by
  unfold stableAmplitude
  rw [if_pos (by rfl), if_pos rfl]

theorem offAxis_resonance (cfg : Config) (pr : Properties) (h : pr = scalar ∨ pr = vector) (i j : Nat) (x : ℝ) (hx : x = 3 ∨ x = -3) (sgn : ℤ) (hs : sgn = 1 ∨ sgn = -1) :
    OffAxis cfg (resonance pr i j x) (frame cfg false (resonance pr i j x) (some .empty) sgn) := by
  obtain ⟨F, e, G, hF⟩ := resonance_frame cfg pr h i j x hx sgn hs
  rw [show frame cfg false (resonance pr i j x) (some .empty) sgn = frameOf cfg false (resonance pr i j x) (some .empty) sgn from rfl, e]
  refine ⟨?_, ?_, trivial, trivial⟩
  · intro q hq
    rw [Option.bind_some, G.apply] at hq
    obtain rfl := Option.some.inj hq
    obtain ⟨a, b⟩ := pion_transverse hs hx hF (x / 2) (6 / 5) (Or.inl rfl)
    simp only [Particle.P]
    rw [a, b]
    norm_num
  · intro q hq
    rw [Option.bind_some, G.apply] at hq
    obtain rfl := Option.some.inj hq
    obtain ⟨a, b⟩ := pion_transverse hs hx hF (x / 2) (-6 / 5) (Or.inr rfl)
    simp only [Particle.P]
    rw [a, b]
    norm_num

theorem offAxis_cascade (cfg : Config) (i j k l : Nat) : OffAxis cfg (cascade i j k l) (some .empty) := by
  refine ⟨?_, ?_, offAxis_resonance cfg _ (Or.inl rfl) i j 3 (Or.inl rfl) 1 (Or.inl rfl), offAxis_resonance cfg _ (Or.inr rfl) k l (-3) (Or.inr rfl) (-1) (Or.inr rfl)⟩
  · intro q hq
    rw [Option.bind_some, Good.empty.apply, act_empty, resonance_P] at hq
    obtain rfl := Option.some.inj hq
    simp; norm_num
  · intro q hq
    rw [Option.bind_some, Good.empty.apply, act_empty, resonance_P] at hq
    obtain rfl := Option.some.inj hq
    simp; norm_num

/-! ### C127 -/

theorem user_one : userHelicityCouplings [1, 0, 0] = some [⟨1, 0, 0⟩] := rfl

/-- The amplitude of a resonance, and the cache afterwards. -/
theorem resonance_run (cfg : Config) (pr : Properties) (i j : Nat) (x : ℝ) (F : Option TransformSequence) (sgn : ℤ) (c : Cache) :
    (helicityAmplitude cfg (resonance pr i j x) false F 0 sgn c).1 = (rotation (cached c (resonance pr i j x).key (frameOf cfg false (resonance pr i j x) F sgn)).1
        ![x / 2, 6 / 5, 0, 5 / 2] (spin pr) 0 (0 - 0)) ∧
    ∃ f1 f2, (helicityAmplitude cfg (resonance pr i j x) false F 0 sgn c).2 =
      (cached (cached (cached c (resonance pr i j x).key (frameOf cfg false (resonance pr i j x) F sgn)).2 (toString i) f1).2 (toString j) f2).2 := by
  unfold resonance
  rw [helicityAmplitude]
  simp only [couplings, user_one, List.foldl_cons, List.foldl_nil]
  have hsk : skipped (Particle.stable pion i 0 ![x / 2, 6 / 5, 0, 5 / 2]).props (Particle.stable pion j 0 ![x / 2, -6 / 5, 0, 5 / 2]).props ⟨1, 0, 0⟩ = false := by
    simp [skipped, isPhoton, Particle.props, pion]
  rw [hsk]
  simp only [Bool.false_eq_true, if_false, helicityAmplitude, pion_amplitude cfg i, pion_amplitude cfg j]
  refine ⟨?_, _, _, rfl⟩
  simp only [Particle.P]
  generalize rotation _ _ _ _ _ = r
  cases r with
  | none => rfl
  | some r => simp

/-- The amplitude of a resonance in its frame. -/
theorem resonance_value (cfg : Config) (pr : Properties) (i j : Nat) (x : ℝ) (F : Option TransformSequence) :
    value cfg (resonance pr i j x) F 0 = rotation F ![x / 2, 6 / 5, 0, 5 / 2] (spin pr) 0 (0 - 0) := by
  unfold resonance
  rw [value]
  have hsk : skipped (Particle.stable pion i 0 ![x / 2, 6 / 5, 0, 5 / 2]).props (Particle.stable pion j 0 ![x / 2, -6 / 5, 0, 5 / 2]).props ⟨1, 0, 0⟩ = false := by
    simp [skipped, isPhoton, Particle.props, pion]
  simp only [couplings, user_one, Option.bind_some, List.filter_cons, hsk, Bool.not_false, if_true, List.filter_nil, total, List.foldl_cons, List.foldl_nil, value, pion_amplitude cfg i,
    pion_amplitude cfg j, Particle.P]
  generalize rotation _ _ _ _ _ = r
  cases r with
  | none => rfl
  | some r => simp

/-- **C127, negative.**  Indices with two digits: the resonances that decay to the particles 1 and 12, and to 11 and 2, have the same index string.  The amplitude of the second
one is taken in the frame of the first: here it is not zero, though the amplitude in its own frame is. -/
theorem index_string_counterexample (noSpinAlign : Bool) (basis : AmpGen.Polarisation.SpinBasis) :
    Sound (cascade 1 12 11 2) ∧ (leaves (cascade 1 12 11 2)).Nodup ∧
      value ⟨false, noSpinAlign, basis⟩ (cascade 1 12 11 2) (frame ⟨false, noSpinAlign, basis⟩ true (cascade 1 12 11 2) (some .empty) 1) 0 = some 0 ∧
      ∃ x : ℂ, x ≠ 0 ∧ amplitude ⟨false, noSpinAlign, basis⟩ (cascade 1 12 11 2) 0 = some x := by
  obtain ⟨cfg, hcfg⟩ : ∃ cfg : Config, cfg = ⟨false, noSpinAlign, basis⟩ := ⟨_, rfl⟩
  rw [← hcfg]
  obtain ⟨F1, e1, G1, h1⟩ := resonance_frame cfg scalar (Or.inl rfl) 1 12 3 (Or.inl rfl) 1 (Or.inl rfl)
  obtain ⟨F2, e2, G2, h2⟩ := resonance_frame cfg vector (Or.inr rfl) 11 2 (-3) (Or.inr rfl) (-1) (Or.inr rfl)
  have hf : frameOf cfg true (cascade 1 12 11 2) (some .empty) 1 = some .empty := by simp [frameOf, hcfg]
  have r0 : rotation (some .empty) (resonance scalar 1 12 3).P (spin scalar) 0 (0 - 0) = some 1 := by
    have := rotation_zero Good.empty (resonance scalar 1 12 3).P (by rw [act_empty, resonance_P]; simp)
    simpa [spin, scalar] using this
  have r1 : rotation (some F1) ![3 / 2, 6 / 5, 0, 5 / 2] (spin scalar) 0 (0 - 0) = some 1 := by
    obtain ⟨a, b⟩ := pion_transverse (Or.inl rfl) (Or.inl rfl) h1 (3 / 2) (6 / 5) (Or.inl rfl)
    have := rotation_zero G1 ![3 / 2, 6 / 5, 0, 5 / 2] (by rw [a, b]; norm_num)
    simpa [spin, scalar] using this
  have r2 : rotation (some F2) ![(-3) / 2, 6 / 5, 0, 5 / 2] (spin vector) 0 (0 - 0) = some 0 := by
    obtain ⟨a, b⟩ := pion_transverse (Or.inr rfl) (Or.inr rfl) h2 ((-3) / 2) (6 / 5) (Or.inl rfl)
    have := rotation_one G2 ![(-3) / 2, 6 / 5, 0, 5 / 2] (by rw [a, b]; norm_num)
    rw [pion_axis h2] at this
    rw [show spin vector = 2 / 2 by simp [spin, vector], this]
    norm_num
  obtain ⟨x, hx, r3⟩ : ∃ x : ℂ, x ≠ 0 ∧ rotation (some F1) ![(-3) / 2, 6 / 5, 0, 5 / 2] (spin vector) 0 (0 - 0) = some x := by
    obtain ⟨a, b⟩ := pion_transverse (Or.inl rfl) (Or.inl rfl) h1 ((-3) / 2) (6 / 5) (Or.inl rfl)
    have := rotation_one G1 ![(-3) / 2, 6 / 5, 0, 5 / 2] (by rw [a, b]; norm_num)
    refine ⟨_, ?_, by rw [show spin vector = 2 / 2 by simp [spin, vector]]; exact this⟩
    have hl : len (act F1.transforms ![(-3) / 2, 6 / 5, 0, 5 / 2]) ≠ 0 := by
      have := len_sq (act F1.transforms ![(-3) / 2, 6 / 5, 0, 5 / 2])
      rintro h
      rw [h, a, b] at this
      nlinarith [mul_self_nonneg (act F1.transforms ![(-3) / 2, 6 / 5, 0, 5 / 2] 2)]
    rw [Complex.ofReal_ne_zero, div_ne_zero_iff]
    refine ⟨?_, hl⟩
    rw [pion_axis h1]
    norm_num
  have hsk : skipped (resonance scalar 1 12 3).props (resonance vector 11 2 (-3)).props ⟨1, 0, 0⟩ = false := by simp [skipped, isPhoton, resonance, Particle.props, scalar, vector]
  refine ⟨sound_cascade 1 12 11 2, by simp [cascade, resonance, leaves], ?_, x, hx, ?_⟩
  · rw [show frame cfg true (cascade 1 12 11 2) (some .empty) 1 = frameOf cfg true (cascade 1 12 11 2) (some .empty) 1 from rfl, hf]
    unfold cascade
    rw [value]
    simp only [couplings, user_one, Option.bind_some, List.filter_cons, hsk, Bool.not_false, if_true, List.filter_nil, total, List.foldl_cons, List.foldl_nil, resonance_value,
      r0]
    rw [show frame cfg false (resonance scalar 1 12 3) (some .empty) 1 = some F1 from e1, show frame cfg false (resonance vector 11 2 (-3)) (some .empty) (-1) = some F2 from e2, r1, r2]
    simp
  · unfold amplitude cascade
    rw [helicityAmplitude]
    simp only [couplings, user_one, List.foldl_cons, List.foldl_nil, hsk, Bool.false_eq_true, if_false]
    have hk0 : (Particle.two scalar 0 0 (some [1, 0, 0]) (resonance scalar 1 12 3) (resonance vector 11 2 (-3))).key = "{{112}{112}}" := by rfl
    have hk1 : (resonance scalar 1 12 3).key = "{112}" := by rfl
    have hk2 : (resonance vector 11 2 (-3)).key = "{112}" := by rfl
    have c0 : ∀ G, cached [] "{{112}{112}}" G = (G, [("{{112}{112}}", G)]) := fun G => rfl
    have hf' : frameOf cfg true (.two scalar 0 0 (some [1, 0, 0]) (resonance scalar 1 12 3) (resonance vector 11 2 (-3))) (some .empty) 1 = some .empty := hf
    rw [hk0, hf', c0]
    simp only []
    obtain ⟨a1, f1, f2, a2⟩ := resonance_run cfg scalar 1 12 3 (some .empty) 1 [("{{112}{112}}", some .empty)]
    have c1 : ∀ G H, cached [("{{112}{112}}", G)] "{112}" H = (H, [("{112}", H), ("{{112}{112}}", G)]) := fun G H => rfl
    rw [hk1, e1, c1] at a1 a2
    have c2 : ∀ G H f1 f2, (cached (cached [("{112}", H), ("{{112}{112}}", G)] (toString 1) f1).2 (toString 12) f2).2 = [("12", f2), ("1", f1), ("{112}", H), ("{{112}{112}}", G)] :=
      fun G H f1 f2 => rfl
    simp only [] at a1 a2
    rw [c2] at a2
    obtain ⟨b1, -⟩ := resonance_run cfg vector 11 2 (-3) (some .empty) (-1) [("12", f2), ("1", f1), ("{112}", some F1), ("{{112}{112}}", some .empty)]
    have c3 : ∀ G H f1 f2 K, (cached [("12", f2), ("1", f1), ("{112}", H), ("{{112}{112}}", G)] "{112}" K).1 = H := fun G H f1 f2 K => rfl
    rw [hk2, c3] at b1
    rw [a1, a2, b1, r0, r1, r3]
    simp

/-! ### Examples -/

/-- C126: the frame of a resonance, and of a pion in it. -/
example (cfg : Config) : Chain cfg .empty ∧ Sound (resonance vector 1 2 3) ∧ Visible .empty (resonance vector 1 2 3).P := by
  refine ⟨.lab, sound_resonance _ (Or.inr rfl) 1 2 3 (Or.inl rfl), fun q hq => ?_⟩
  rw [Good.empty.apply, act_empty, resonance_P] at hq
  obtain rfl := Option.some.inj hq
  left
  simp; norm_num

example (cfg : Config) : ∃ F, frame cfg false (resonance vector 1 2 3) (some .empty) 1 = some F ∧ Visible F ![3 / 2, 6 / 5, 0, 5 / 2] := by
  obtain ⟨F, e, G, hF⟩ := resonance_frame cfg vector (Or.inr rfl) 1 2 3 (Or.inl rfl) 1 (Or.inl rfl)
  refine ⟨F, e, fun q hq => ?_⟩
  rw [G.apply] at hq
  obtain rfl := Option.some.inj hq
  obtain ⟨a, b⟩ := pion_transverse (Or.inl rfl) (Or.inl rfl) hF (3 / 2) (6 / 5) (Or.inl rfl)
  left
  rw [a, b]
  norm_num

/-- C127. -/
example : Binary (cascade 1 2 3 4) ∧ (leaves (cascade 1 2 3 4)).Nodup ∧ ∀ i ∈ leaves (cascade 1 2 3 4), i < 10 :=
  ⟨sound_binary _ (sound_cascade 1 2 3 4), by simp [cascade, resonance, leaves], by simp [cascade, resonance, leaves]⟩

/-- C128: a proton. -/
example : Sound (.stable ⟨1, 2212, 4⟩ 1 1 ![0, 3, 0, 5]) ∧ Visible .empty ![0, 3, 0, 5] := by
  refine ⟨⟨by simp, ⟨by simp, by simp, by simp; norm_num⟩, by simp, by simp [isPhoton], by simp [isNeutrino]⟩, fun q hq => ?_⟩
  rw [Good.empty.apply, act_empty] at hq
  obtain rfl := Option.some.inj hq
  left
  simp; norm_num

/-- A rotation about the second axis. -/
noncomputable def tilt : Matrix (Fin 3) (Fin 3) ℝ := !![3 / 5, 0, -4 / 5; 0, 1, 0; 4 / 5, 0, 3 / 5]

theorem tilt_rotation : tilt * tilt.transpose = 1 ∧ tilt.det = 1 := by
  constructor
  · ext i j
    fin_cases i <;> fin_cases j <;> simp [tilt, Matrix.mul_apply, Fin.sum_univ_three] <;> norm_num
  · rw [Matrix.det_fin_three]
    simp [tilt]; norm_num

/-- C129: the decay to two resonances, in an event that is tilted. -/
example (noSpinAlign : Bool) : ∃ x, intensity ⟨false, noSpinAlign, .dirac⟩ (cascade 1 2 3 4) = some x ∧ intensity ⟨false, noSpinAlign, .dirac⟩ (rotated tilt (cascade 1 2 3 4)) = some x := by
  refine rotated_intensity _ rfl rfl (sound_cascade 1 2 3 4) (by simp [resonance, leaves]) (by simp [resonance, leaves]) ?_ ?_ ?_ tilt_rotation.1 tilt_rotation.2
    (offAxis_cascade _ 1 2 3 4) ?_
  · rw [resonance_P, resonance_P]; simp
  · rw [resonance_P, resonance_P]; simp
  · rw [resonance_P, resonance_P]; simp
  · intro q hq
    rw [Option.bind_some, Good.empty.apply, act_empty, resonance_P] at hq
    obtain rfl := Option.some.inj hq
    simp [turned, tilt]; norm_num

example (noSpinAlign : Bool) : ∃ x, helicityIntensity ⟨true, noSpinAlign, .dirac⟩ (resonance vector 1 2 3) 1 = some x ∧
    helicityIntensity ⟨true, noSpinAlign, .dirac⟩ (rotated tilt (resonance vector 1 2 3)) 1 = some x := by
  refine rotated_helicity_intensity _ rfl rfl (sound_resonance _ (Or.inr rfl) 1 2 3 (Or.inl rfl)) (by simp [resonance, leaves]) (by simp [resonance, leaves]) tilt_rotation.1 tilt_rotation.2
    ?_ ?_ ?_ 1 (by simp [resonance, Particle.props, vector])
  · intro q hq
    rw [Option.bind_some, Good.empty.apply, act_empty, resonance_P] at hq
    obtain rfl := Option.some.inj hq
    simp; norm_num
  · intro q hq
    rw [Option.bind_some, Good.empty.apply, act_empty, resonance_P] at hq
    obtain rfl := Option.some.inj hq
    simp [turned, tilt]; norm_num
  · exact offAxis_resonance ⟨true, noSpinAlign, .dirac⟩ _ (Or.inr rfl) 1 2 3 (Or.inl rfl) 1 (Or.inl rfl)

/-- C130: a vector that decays to a proton and its antiparticle, in an `S` wave. -/
example (noSpinAlign : Bool) : intensity ⟨false, noSpinAlign, .dirac⟩ (.two ⟨2, 443, 10⟩ 0 2 none (.stable ⟨1, 2212, 4⟩ 1 1 ![0, 3, 0, 5]) (.stable ⟨1, -2212, 4⟩ 2 1 ![0, -3, 0, 5])) = some 1 := by
  have s1 : Sound (.stable ⟨1, 2212, 4⟩ 1 1 ![0, 3, 0, 5]) := ⟨by simp, ⟨by simp, by simp, by simp; norm_num⟩, by simp, by simp [isPhoton], by simp [isNeutrino]⟩
  have s2 : Sound (.stable ⟨1, -2212, 4⟩ 2 1 ![0, -3, 0, 5]) := ⟨by simp, ⟨by simp, by simp, by simp; norm_num⟩, by simp, by simp [isPhoton], by simp [isNeutrino]⟩
  refine two_body_normalised _ rfl rfl ⟨s1, s2, by simp [Particle.props]⟩ (by norm_num) (by norm_num) (by norm_num) ⟨1, ?_, Or.inr (by norm_num)⟩ ⟨?_, ?_, trivial, trivial⟩
  · exact ((AmpGen.Spin.spin_orbit_couplings _ _ 2 1 1).1 0 1).2 ⟨0, 1, by norm_num, by norm_num, by norm_num, by unfold AmpGen.Spin.Triangle; norm_num, by simp⟩
  · intro q hq
    rw [Option.bind_some, Good.empty.apply, act_empty] at hq
    obtain rfl := Option.some.inj hq
    simp [Particle.P]; norm_num
  · intro q hq
    rw [Option.bind_some, Good.empty.apply, act_empty] at hq
    obtain rfl := Option.some.inj hq
    simp [Particle.P]; norm_num

end AmpGen.Helicity
