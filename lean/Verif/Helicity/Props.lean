import Verif.Helicity.LemmasHead
import Verif.Spin.PropsCouplings
import Verif.Spin.Props
/-
Properties C126-C130: amplitudes in the helicity formalism.
-/
namespace AmpGen.Helicity
open Complex Spec
open AmpGen.Transform
open AmpGen.Polarisation (Mom Properties)
open AmpGen.Polarisation.Spec (OnShell)
open AmpGen.Spin (LS recouplingConstants spinOrbitCouplings)

/-! ### C126: frames -/

theorem chain_good {cfg : Config} {F : TransformSequence} (h : Chain cfg F) : Good F := by
  induction h with
  | lab => exact Good.empty
  | step hc ht hs hv hf ih =>
    obtain ⟨F1, c, s, f, g, e1, G1, -⟩ := child_frame cfg ht ih (hv _ (ih.apply _)) hs
    rw [hf] at e1
    rw [Option.some.inj e1]
    exact G1

/-- **C126.**  The frame of a product exists; it is a Lorentz transformation, the product is at rest in it, and its mother, if it is at rest in her frame, flies along the
negative axis. -/
theorem product_at_rest (cfg : Config) {F : TransformSequence} (hF : Chain cfg F) {t : Particle} (ht : Sound t) (hv : Visible F t.P) {sgn : ℤ} (hs : sgn = 1 ∨ sgn = -1) :
    ∃ F', frame cfg false t (some F) sgn = some F' ∧ Chain cfg F' ∧
      apply F' t.P = some ![0, 0, 0, √(t.P 3 * t.P 3 - t.P 0 * t.P 0 - t.P 1 * t.P 1 - t.P 2 * t.P 2)] ∧
      (∀ q, ∃ q', apply F' q = some q' ∧ q' 3 * q' 3 - q' 0 * q' 0 - q' 1 * q' 1 - q' 2 * q' 2 = q 3 * q 3 - q 0 * q 0 - q 1 * q 1 - q 2 * q 2) ∧
      ∀ Q M, 0 ≤ M → apply F Q = some ![0, 0, 0, M] → ∃ z E, apply F' Q = some ![0, 0, -z, E] ∧ 0 ≤ z := by
  have hG := chain_good hF
  have hM := sound_massive _ (inner_sound t ht)
  obtain ⟨F', c, s, f, g, e1, G1, ha, e2, e3⟩ := frame_spec cfg hG hM (by rw [inner_P]; exact hv _ (hG.apply _)) hs
  have e1' : frame cfg false t (some F) sgn = some F' := by rw [inner_frame, e1]
  refine ⟨F', e1', .step hF ht hs hv e1', ?_, fun q => ⟨_, G1.apply q, ?_⟩, fun Q M hM0 hQ => ?_⟩
  · rw [G1.apply, ← inner_P t, e3, hM.2.1]
    rfl
  · have := act_msq G1.proper q
    unfold msq at this
    linarith
  · rw [hG.apply] at hQ
    have hQ' := Option.some.inj hQ
    rw [G1.apply, e2, hQ']
    have ht0 : turn sgn c s f g ![0, 0, 0, M] = ![0, 0, 0, M] := by
      unfold turn turnP turnM
      split <;> funext i <;> fin_cases i <;> simp
    rw [ht0]
    refine ⟨√(act F.transforms (inner t).P 3 / √(inner t).massSq * (act F.transforms (inner t).P 3 / √(inner t).massSq) - 1) * M,
      act F.transforms (inner t).P 3 / √(inner t).massSq * M, ?_, mul_nonneg (Real.sqrt_nonneg _) hM0⟩
    unfold boostz
    congr 1
    funext i
    fin_cases i <;> simp

/-! ### C127: the cache of frames -/

/-- **C127.**  If no two particles of a decay have the same index and the indices have one digit, the amplitude is the one in which every frame is made anew. -/
theorem amplitude_without_cache (cfg : Config) {t : Particle} (hb : Binary t) (hn : (leaves t).Nodup) (h : ∀ i ∈ leaves t, i < 10) (Mz : ℝ) :
    amplitude cfg t Mz = value cfg t (frame cfg true t (some .empty) 1) Mz := amplitude_value cfg hb hn h Mz

/-! ### C128: the alignment of spins -/

/-- **C128.**  The amplitudes between the polarisation states of a particle, which are defined in the frame of the event, and its spin states along the axis of its frame in
the decay, form a unitary matrix. -/
theorem spin_alignment_unitary (cfg : Config) (hb : cfg.basis = .dirac) {F : TransformSequence} (hF : Chain cfg F) {pr : Properties} {idx : Nat} {pol : ℤ} {p : Mom}
    (hs : Sound (.stable pr idx pol p)) (hv : Visible F p) {sgn : ℤ} (hsgn : sgn = 1 ∨ sgn = -1) :
    ∃ (F' : TransformSequence) (M : ℤ → Nat → ℂ), frame cfg false (.stable pr idx pol p) (some F) sgn = some F' ∧
      (∀ s ∈ states pr, ∀ a ≤ pr.twoSpin, value cfg (.stable pr idx s p) (some F') (a - (pr.twoSpin : ℝ) / 2) = some (M s a)) ∧
      ∀ a ≤ pr.twoSpin, ∀ b ≤ pr.twoSpin, ((states pr).map fun s => M s a * (starRingEnd ℂ) (M s b)).sum = if a = b then 1 else 0 := by
  obtain ⟨F', e1, hc, e2, -⟩ := product_at_rest cfg hF hs hv hsgn
  have hG := chain_good hc
  rw [hG.apply] at e2
  have e3 := Option.some.inj e2
  have hm : √((Particle.stable pr idx pol p).P 3 * (Particle.stable pr idx pol p).P 3 - (Particle.stable pr idx pol p).P 0 * (Particle.stable pr idx pol p).P 0 -
      (Particle.stable pr idx pol p).P 1 * (Particle.stable pr idx pol p).P 1 - (Particle.stable pr idx pol p).P 2 * (Particle.stable pr idx pol p).P 2) = pr.mass := by
    have := (OnShell.forward hs.2.1).2
    unfold msq at this
    simp only [Particle.P]
    rw [this, Real.sqrt_mul_self hs.2.1.1.le]
  rw [hm] at e3
  obtain ⟨h1, h2⟩ := leaf_unitary cfg hb hG hs.1 hs.2.1 hs.2.2.1 e3
  exact ⟨F', leafA cfg pr p F', e1, h1, fun a ha b hb => h2 a b ha hb⟩

/-! ### C129: rotations of the event -/

/-- **C129.**  The intensity of the decay of a particle at rest, summed over all polarisations, does not change when the event is rotated. -/
theorem rotated_intensity (cfg : Config) (hb : cfg.basis = .dirac) (hm : cfg.movingParent = false) {pr : Properties} {L S' : Nat} {ha : Option (List ℝ)} {d1 d2 : Particle}
    (hs : Sound (.two pr L S' ha d1 d2)) (hn : (leaves (.two pr L S' ha d1 d2)).Nodup) (h10 : ∀ i ∈ leaves (.two pr L S' ha d1 d2), i < 10)
    (h0 : d2.P 0 = -d1.P 0) (h1 : d2.P 1 = -d1.P 1) (h2 : d2.P 2 = -d1.P 2)
    {R : Matrix (Fin 3) (Fin 3) ℝ} (hR : R * R.transpose = 1) (hd : R.det = 1) (ho : OffAxis cfg (.two pr L S' ha d1 d2) (some .empty)) (ho' : Away (some .empty) (turned R d1.P)) :
    ∃ x, intensity cfg (.two pr L S' ha d1 d2) = some x ∧ intensity cfg (rotated R (.two pr L S' ha d1 d2)) = some x := by
  have hbin := sound_binary _ hs
  have hbin' := sound_binary _ (rotated_sound hR _ hs)
  have hn' : (leaves (rotated R (.two pr L S' ha d1 d2))).Nodup := by rw [rotated_leaves]; exact hn
  have h10' : ∀ i ∈ leaves (rotated R (.two pr L S' ha d1 d2)), i < 10 := by rw [rotated_leaves]; exact h10
  obtain ⟨cs, hcs, hco⟩ := sound_couples hs
  obtain ⟨hs1, hs2, -⟩ := hs
  obtain ⟨o1, -, o3, o4⟩ := ho
  have o1 := away_act Good.empty o1
  have o1' := away_act Good.empty ho'
  rw [act_empty] at o1 o1'
  obtain ⟨a, b, F1, F1', F2, F2', hab, e1, e1', e2, e2', G1, G1', G2, G2', O1, O1', O2, O2', r1, r2⟩ := head_rel cfg hR hd hs1 hs2 h0 h1 h2 o1 o1'
  rw [e1] at o3
  rw [e2] at o4
  obtain ⟨D1, D1', K1⟩ := gram_rel cfg hb hR d1 hs1 F1 F1' a b hab G1 G1' r1 O1 O1' o3
  obtain ⟨D2, D2', K2⟩ := gram_rel cfg hb hR d2 hs2 F2 F2' a (-b) (by linarith [neg_sq b]) G2 G2' r2 O2 O2' o4
  have hpos : (0 : ℝ) < 1e-15 := by norm_num
  obtain ⟨p1, -⟩ := rotated_props R d1
  obtain ⟨p2, -⟩ := rotated_props R d2
  obtain ⟨T, TG⟩ := two_gram cfg (L := L) (S' := S') hcs hco Good.empty (act_empty d1.P) (by linarith) e1 e2 D1 D2
  obtain ⟨T', TG'⟩ := two_gram cfg (d1 := rotated R d1) (d2 := rotated R d2) (pr := pr) (ha := ha) (cs := cs) (L := L) (S' := S') (by rw [p1, p2]; exact hcs)
    (by rw [p1, p2]; exact hco) Good.empty (act_empty _) (by rw [rotated_P]; linarith) e1' e2' D1' D2'
  have hf : frame cfg true (.two pr L S' ha d1 d2) (some .empty) 1 = some .empty := by simp [frame, frameOf, hm]
  have hf' : frame cfg true (rotated R (.two pr L S' ha d1 d2)) (some .empty) 1 = some .empty := by simp [rotated, frame, frameOf, hm]
  have hreal : ∃ x : ℝ, ∑ i ∈ Finset.range (pr.twoSpin + 1), gram cfg (.two pr L S' ha d1 d2) .empty i i = x := by
    refine ⟨∑ i ∈ Finset.range (pr.twoSpin + 1), ((polarised (.two pr L S' ha d1 d2)).map fun t' => normSq (A cfg t' .empty i)).sum, ?_⟩
    push_cast
    refine Finset.sum_congr rfl fun i _ => ?_
    rw [gram_diag]
  obtain ⟨x, hx⟩ := hreal
  refine ⟨x, intensity_gram cfg hbin hn h10 hf T hx, intensity_gram cfg hbin' hn' h10' hf' T' ?_⟩
  rw [← hx]
  have hmem : ∀ k ∈ (cs.filter fun k => !skipped d1.props d2.props k), k ∈ cs := fun k hk => List.mem_of_mem_filter hk
  have s1 := trace_two hco (q := d1.P) (by linarith) _ hmem (fun k k' => gram cfg d1 F1 (ia d1.props k) (ia d1.props k') * gram cfg d2 F2 (ib d2.props k) (ib d2.props k'))
  have s2 := trace_two hco (q := turned R d1.P) (by linarith) _ hmem (fun k k' => gram cfg (rotated R d1) F1' (ia d1.props k) (ia d1.props k') *
    gram cfg (rotated R d2) F2' (ib d2.props k) (ib d2.props k'))
  have g1 : ∑ i ∈ Finset.range (pr.twoSpin + 1), gram cfg (.two pr L S' ha d1 d2) .empty i i = _ := Finset.sum_congr rfl fun i _ => TG i i
  have g2 : ∑ i ∈ Finset.range (pr.twoSpin + 1), gram cfg (rotated R (.two pr L S' ha d1 d2)) .empty i i = _ := Finset.sum_congr rfl fun i _ => TG' i i
  rw [p1, p2, rotated_P] at g2
  show ∑ i ∈ Finset.range (pr.twoSpin + 1), _ = _
  rw [g1, g2, s1, s2]
  refine S_congr fun k hk => S_congr fun k' hk' => ?_
  by_cases hic : ic pr k = ic pr k'
  · obtain ⟨i1, i2, i3, m1, m2, m3⟩ := couples_index hco (hmem k hk)
    obtain ⟨i1', i2', i3', m1', m2', m3'⟩ := couples_index hco (hmem k' hk')
    have hphase : (((ia d1.props k : ℕ) : ℤ) - (ia d1.props k' : ℕ)) - (((ib d2.props k : ℕ) : ℤ) - (ib d2.props k' : ℕ)) = 0 := by
      have : (((ia d1.props k : ℕ) : ℝ) - (ia d1.props k' : ℕ)) - (((ib d2.props k : ℕ) : ℝ) - (ib d2.props k' : ℕ)) = 0 := by rw [hic] at m3; linarith
      exact_mod_cast this
    have hw' : ((a : ℂ) + I * (-b : ℝ)) = (starRingEnd ℂ) ((a : ℂ) + I * b) := by simp
    rw [K1 _ i1 _ i1', K2 _ i2 _ i2', hw']
    have := head_phase (unit_phase hab) hphase
    generalize ((a : ℂ) + I * b) ^ (((ia d1.props k' : ℕ) : ℤ) - (ia d1.props k : ℕ)) = u3 at *
    generalize ((starRingEnd ℂ) ((a : ℂ) + I * b)) ^ (((ib d2.props k' : ℕ) : ℤ) - (ib d2.props k : ℕ)) = u4 at *
    rw [if_pos hic]
    linear_combination (k.factor * k'.factor * (gram cfg d1 F1 (ia d1.props k) (ia d1.props k') * gram cfg d2 F2 (ib d2.props k) (ib d2.props k'))) * this
  · rw [if_neg hic]
    ring

/-- **C129.**  If the decaying particle moves, the same holds for the intensity of each of its helicities. -/
theorem rotated_helicity_intensity (cfg : Config) (hb : cfg.basis = .dirac) (hm : cfg.movingParent = true) {t : Particle} (hs : Sound t) (hn : (leaves t).Nodup) (h10 : ∀ i ∈ leaves t, i < 10)
    {R : Matrix (Fin 3) (Fin 3) ℝ} (hR : R * R.transpose = 1) (hd : R.det = 1) (h0 : Away (some .empty) t.P) (h0' : Away (some .empty) (turned R t.P))
    (ho : OffAxis cfg t (frame cfg true t (some .empty) 1)) (a : Nat) (hat : a ≤ t.props.twoSpin) :
    ∃ x, helicityIntensity cfg t a = some x ∧ helicityIntensity cfg (rotated R t) a = some x := by
  have hh : ∀ t : Particle, frame cfg true t (some .empty) 1 = frame cfg false t (some .empty) 1 := by
    intro t
    cases t <;> simp [frame, frameOf, hm]
  have o1 := away_act Good.empty h0
  have o1' := away_act Good.empty h0'
  rw [act_empty] at o1 o1'
  have hpos : (0 : ℝ) < 1e-15 := by norm_num
  have hl : len t.P ≠ 0 := by
    have := len_sq t.P
    rintro h
    rw [h] at this
    nlinarith [mul_self_nonneg (t.P 2)]
  obtain ⟨F1, c1, s1, f1, g1, e1, G1, O1, A1, E1⟩ := child_frame cfg hs Good.empty (sgn := 1) (Or.inl o1) (Or.inl rfl)
  obtain ⟨F1', c1', s1', f1', g1', e1', G1', O1', A1', E1'⟩ := child_frame cfg (rotated_sound hR _ hs) Good.empty (sgn := 1) (Or.inl (by rw [act_empty, rotated_P]; exact o1')) (Or.inl rfl)
  rw [act_empty] at A1 A1'
  rw [rotated_P] at A1'
  obtain ⟨w, v, hwv, hrz⟩ := head_turn hR hd A1 A1' hl
  have hrel : Rel R w v F1 F1' := by
    intro q
    rw [E1, E1', act_empty, act_empty, act_empty, act_empty, rotated_P, turned_energy, inner_rotated, rotated_massSq hR (inner_sound _ hs), ← boostz_rz]
    congr 1
    unfold turn
    rw [if_pos rfl, if_pos rfl]
    exact hrz q
  rw [hh, e1] at ho
  obtain ⟨D, D', K⟩ := gram_rel cfg hb hR t hs F1 F1' w v hwv G1 G1' hrel O1 O1' ho
  obtain ⟨tp, -⟩ := rotated_props R t
  have key : ∀ (t : Particle) (F : TransformSequence), Binary t → (leaves t).Nodup → (∀ i ∈ leaves t, i < 10) → frame cfg true t (some .empty) 1 = some F → Defined cfg t F →
      a ≤ t.props.twoSpin → helicityIntensity cfg t a = some ((polarised t).map fun t' => normSq (A cfg t' F a)).sum := by
    intro t F k1 k2 k3 k4 k5 k6
    have hA := polarised_amplitude cfg k1 k2 k3 k4 k5
    unfold helicityIntensity
    rw [← sumOf_some]
    congr 1
    refine List.map_congr_left fun t' ht' => ?_
    rw [hA t' ht' a k6]
    rfl
  refine ⟨_, key t F1 (sound_binary _ hs) hn h10 (by rw [hh, e1]) D hat, ?_⟩
  rw [key (rotated R t) F1' (sound_binary _ (rotated_sound hR _ hs)) (by rw [rotated_leaves]; exact hn) (by rw [rotated_leaves]; exact h10) (by rw [hh, e1']) D' (by rw [tp]; exact hat)]
  congr 1
  have := K a hat a hat
  rw [gram_diag, gram_diag, sub_self, zpow_zero, one_mul] at this
  exact_mod_cast this

/-! ### C130: normalisation -/

theorem allowed_couplings {pr d1 d2 : Properties} {L S' : Nat} (h : ∃ s : ℚ, ((L : ℚ), s) ∈ spinOrbitCouplings (fun _ => true) false pr.twoSpin d1.twoSpin d2.twoSpin ∧ (S' = 0 ∨ s = (S' : ℚ) / 2)) :
    ∃ s : ℚ, ((L : ℚ), s) ∈ spinOrbitCouplings (fun _ => true) false pr.twoSpin d1.twoSpin d2.twoSpin ∧
      couplings pr L S' none d1 d2 = some (recouplingConstants (spin pr) L (s : ℝ) (spin d1) (spin d2)) := by
  obtain ⟨s, hs, h⟩ := h
  by_cases h0 : S' = 0
  · obtain ⟨l, hl⟩ : ∃ l, (spinOrbitCouplings (fun _ => true) false pr.twoSpin d1.twoSpin d2.twoSpin).find? (fun l => l.1 == (L : ℚ)) = some l := by
      rcases hf : (spinOrbitCouplings (fun _ => true) false pr.twoSpin d1.twoSpin d2.twoSpin).find? (fun l => l.1 == (L : ℚ)) with _ | l
      · rw [List.find?_eq_none] at hf
        exact absurd (by simp) (hf _ hs)
      · exact ⟨l, hf⟩
    have h1 := List.find?_some hl
    have h2 := List.mem_of_find?_eq_some hl
    obtain ⟨l1, l2⟩ := l
    simp only [beq_iff_eq] at h1
    subst h1
    refine ⟨l2, h2, ?_⟩
    unfold couplings
    simp only [if_pos h0, hl]
  · rcases h with h | h
    · exact absurd h h0
    · refine ⟨s, hs, ?_⟩
      unfold couplings
      simp only [if_neg h0, h]
      push_cast
      rfl

theorem norm_couplings {T A B : Nat} (hp : 2 ∣ T + A + B) {L : Nat} {s : ℚ} (h : ((L : ℚ), s) ∈ spinOrbitCouplings (fun _ => true) false T A B) :
    ∑ a ∈ Finset.range (A + 1), ∑ b ∈ Finset.range (B + 1), AmpGen.Spin.coupling (recouplingConstants (T / 2) L (s : ℝ) (A / 2) (B / 2)) (a - A / 2) (b - B / 2) *
      AmpGen.Spin.coupling (recouplingConstants (T / 2) L (s : ℝ) (A / 2) (B / 2)) (a - A / 2) (b - B / 2) = 1 := by
  obtain ⟨l, k, hl, hk, hle, ⟨t1, t2⟩, -⟩ := ((AmpGen.Spin.spin_orbit_couplings _ _ T A B).1 _ _).1 h
  have hd : |(A : ℚ) / 2 - (B : ℚ) / 2| = ((A + B : ℕ) : ℚ) / 2 - (min A B : ℕ) := by
    rcases le_total A B with hAB | hAB
    · have : (A : ℚ) ≤ B := by exact_mod_cast hAB
      rw [abs_of_nonpos (by linarith), min_eq_left hAB]; push_cast; ring
    · have : (B : ℚ) ≤ A := by exact_mod_cast hAB
      rw [abs_of_nonneg (by linarith), min_eq_right hAB]; push_cast; ring
  rw [hd] at hk
  have hkm : k ≤ min A B := by
    rw [hk] at hle
    have : (k : ℚ) ≤ (min A B : ℕ) := by push_cast at hle ⊢; linarith
    exact_mod_cast this
  have hs : s = ((A + B : ℕ) : ℚ) / 2 - (min A B - k : ℕ) := by rw [hk]; push_cast [Nat.cast_sub hkm]; ring
  obtain ⟨n, hn⟩ : ∃ n, min A B - k = n := ⟨_, rfl⟩
  rw [hn] at hs
  have hnm : n ≤ min A B := by omega
  have h2n : 2 * n ≤ A + B := by have := min_le_left A B; have := min_le_right A B; omega
  have hs2 : s = ((A + B - 2 * n : ℕ) : ℚ) / 2 := by rw [hs]; push_cast [Nat.cast_sub h2n]; ring
  have hsr : (s : ℝ) = ((A : ℝ) + B) / 2 - n := by rw [hs]; push_cast; ring
  rw [hs2] at t1 t2
  rw [abs_le] at t1
  have h1 : 2 * L ≤ T + (A + B - 2 * n) := by
    have : (2 * L : ℚ) ≤ T + (A + B - 2 * n : ℕ) := by linarith [t1.2]
    exact_mod_cast this
  have h3 : A + B - 2 * n ≤ 2 * L + T := by
    have : ((A + B - 2 * n : ℕ) : ℚ) ≤ 2 * L + T := by linarith [t1.1]
    exact_mod_cast this
  have h2 : T ≤ 2 * L + (A + B - 2 * n) := by
    have : (T : ℚ) ≤ 2 * L + (A + B - 2 * n : ℕ) := by linarith
    exact_mod_cast this
  have := AmpGen.Spin.helicity_couplings_orthonormal A B T n n L L hnm hnm hp h1 h2 h3 h1 h2 h3
  rw [if_pos ⟨rfl, rfl⟩] at this
  rw [hsr]
  exact this

theorem coupling_pairs {pr p1 p2 : Properties} {cs : List LS} (hco : Couples pr p1 p2 cs) (X : Nat → Nat → ℝ) (l : List LS) (hl : ∀ k ∈ l, k ∈ cs) :
    ∑ a ∈ Finset.range (p1.twoSpin + 1), ∑ b ∈ Finset.range (p2.twoSpin + 1), AmpGen.Spin.coupling l (a - (p1.twoSpin : ℝ) / 2) (b - (p2.twoSpin : ℝ) / 2) * X a b =
      (l.map fun k => k.factor * X (ia p1 k) (ib p2 k)).sum := by
  induction l with
  | nil => simp [AmpGen.Spin.coupling]
  | cons k l ih =>
    have ih := ih fun k hk => hl k (List.mem_cons_of_mem _ hk)
    obtain ⟨i1, i2, -, m1, m2, -⟩ := couples_index hco (hl k List.mem_cons_self)
    rw [List.map_cons, List.sum_cons, ← ih]
    have e : ∀ a b : Nat, AmpGen.Spin.coupling (k :: l) (a - (p1.twoSpin : ℝ) / 2) (b - (p2.twoSpin : ℝ) / 2) =
        (if ia p1 k = a ∧ ib p2 k = b then k.factor else 0) + AmpGen.Spin.coupling l (a - (p1.twoSpin : ℝ) / 2) (b - (p2.twoSpin : ℝ) / 2) := by
      intro a b
      unfold AmpGen.Spin.coupling
      rw [List.map_cons, List.sum_cons]
      congr 1
      refine if_congr ?_ rfl rfl
      rw [m1, m2]
      constructor
      · rintro ⟨h1, h2⟩
        have h1' : (ia p1 k : ℝ) = a := by linarith
        have h2' : (ib p2 k : ℝ) = b := by linarith
        exact ⟨by exact_mod_cast h1', by exact_mod_cast h2'⟩
      · rintro ⟨h1, h2⟩
        rw [h1, h2]
        exact ⟨rfl, rfl⟩
    simp only [e, add_mul, Finset.sum_add_distrib]
    congr 1
    rw [Finset.sum_eq_single (ia p1 k) (fun a _ ha => Finset.sum_eq_zero fun b _ => by rw [if_neg (fun h => ha h.1.symm), zero_mul]) (fun h => absurd (Finset.mem_range.2 (by omega)) h),
      Finset.sum_eq_single (ib p2 k) (fun b _ hb => by rw [if_neg (fun h => hb h.2.symm), zero_mul]) (fun h => absurd (Finset.mem_range.2 (by omega)) h), if_pos ⟨rfl, rfl⟩]

/-- The sum over the pairs of couplings of states that are orthonormal. -/
theorem trace_couplings {pr p1 p2 : Properties} {cs : List LS} (hco : Couples pr p1 p2 cs) (g1 g2 : Nat → Nat → ℂ)
    (h1 : ∀ i ≤ p1.twoSpin, ∀ j ≤ p1.twoSpin, g1 i j = if i = j then 1 else 0) (h2 : ∀ i ≤ p2.twoSpin, ∀ j ≤ p2.twoSpin, g2 i j = if i = j then 1 else 0) :
    (S cs fun k => S cs fun k' => k.factor * k'.factor * (if ic pr k = ic pr k' then 1 else 0) * (g1 (ia p1 k) (ia p1 k') * g2 (ib p2 k) (ib p2 k'))) =
      ((∑ a ∈ Finset.range (p1.twoSpin + 1), ∑ b ∈ Finset.range (p2.twoSpin + 1), AmpGen.Spin.coupling cs (a - (p1.twoSpin : ℝ) / 2) (b - (p2.twoSpin : ℝ) / 2) *
        AmpGen.Spin.coupling cs (a - (p1.twoSpin : ℝ) / 2) (b - (p2.twoSpin : ℝ) / 2) : ℝ) : ℂ) := by
  rw [coupling_pairs hco (fun a b => AmpGen.Spin.coupling cs (a - (p1.twoSpin : ℝ) / 2) (b - (p2.twoSpin : ℝ) / 2)) cs fun k hk => hk, ← Complex.ofRealHom_eq_coe, map_list_sum,
    List.map_map]
  refine S_congr (g := fun k => Complex.ofRealHom (k.factor * AmpGen.Spin.coupling cs (ia p1 k - (p1.twoSpin : ℝ) / 2) (ib p2 k - (p2.twoSpin : ℝ) / 2))) fun k hk => ?_
  obtain ⟨i1, i2, i3, m1, m2, m3⟩ := couples_index hco hk
  rw [← m1, ← m2, map_mul]
  unfold AmpGen.Spin.coupling
  rw [map_list_sum, List.map_map]
  have e : (Complex.ofRealHom k.factor) * (List.map (Complex.ofRealHom ∘ fun f => if f.m1 = k.m1 ∧ f.m2 = k.m2 then f.factor else 0) cs).sum =
    S cs fun f => (k.factor : ℂ) * ((if f.m1 = k.m1 ∧ f.m2 = k.m2 then f.factor else 0 : ℝ) : ℂ) := (S_mul _ _ _).symm
  rw [e]
  refine S_congr fun k' hk' => ?_
  obtain ⟨i1', i2', i3', m1', m2', m3'⟩ := couples_index hco hk'
  rw [h1 _ i1 _ i1', h2 _ i2 _ i2']
  by_cases h : k'.m1 = k.m1 ∧ k'.m2 = k.m2
  · have ea : ia p1 k = ia p1 k' := by unfold ia; rw [h.1]
    have eb : ib p2 k = ib p2 k' := by unfold ib; rw [h.2]
    have ec : ic pr k = ic pr k' := by unfold ic; rw [h.1, h.2]
    rw [if_pos h, if_pos ea, if_pos eb, if_pos ec]
    ring
  · rw [if_neg h]
    have : ¬ (ia p1 k = ia p1 k' ∧ ib p2 k = ib p2 k') := by
      rintro ⟨h1, h2⟩
      apply h
      rw [m1, m2, m1', m2', h1, h2]
      exact ⟨rfl, rfl⟩
    rw [not_and_or] at this
    rcases this with h | h
    · rw [if_neg h]; simp
    · rw [if_neg h]; simp

/-- The intensity if the products are in states that are orthonormal. -/
theorem two_body_sum (cfg : Config) (hm : cfg.movingParent = false) {pr : Properties} {L S' : Nat} {d1 d2 : Particle} (hbin : Binary (.two pr L S' none d1 d2))
    (hnd : (leaves (.two pr L S' none d1 d2)).Nodup) (h10 : ∀ i ∈ leaves (.two pr L S' none d1 d2), i < 10) {cs : List LS}
    (hcs : couplings pr L S' none d1.props d2.props = some cs) (hco : Couples pr d1.props d2.props cs) (hph : isPhoton d1.props = false ∧ isPhoton d2.props = false)
    (hq : d1.P 0 * d1.P 0 + d1.P 1 * d1.P 1 ≠ 0) {F1 F2 : TransformSequence} (e1 : frame cfg false d1 (some .empty) 1 = some F1) (e2 : frame cfg false d2 (some .empty) (-1) = some F2)
    (D1 : Defined cfg d1 F1) (D2 : Defined cfg d2 F2) (g1 : ∀ i ≤ d1.props.twoSpin, ∀ j ≤ d1.props.twoSpin, gram cfg d1 F1 i j = if i = j then 1 else 0)
    (g2 : ∀ i ≤ d2.props.twoSpin, ∀ j ≤ d2.props.twoSpin, gram cfg d2 F2 i j = if i = j then 1 else 0) :
    intensity cfg (.two pr L S' none d1 d2) = some (∑ a ∈ Finset.range (d1.props.twoSpin + 1), ∑ b ∈ Finset.range (d2.props.twoSpin + 1),
      AmpGen.Spin.coupling cs (a - (d1.props.twoSpin : ℝ) / 2) (b - (d2.props.twoSpin : ℝ) / 2) *
        AmpGen.Spin.coupling cs (a - (d1.props.twoSpin : ℝ) / 2) (b - (d2.props.twoSpin : ℝ) / 2)) := by
  obtain ⟨T, TG⟩ := two_gram cfg (L := L) (S' := S') (ha := none) hcs hco Good.empty (act_empty d1.P) hq e1 e2 D1 D2
  have hf : frame cfg true (.two pr L S' none d1 d2) (some .empty) 1 = some .empty := by simp [frame, frameOf, hm]
  refine intensity_gram cfg hbin hnd h10 hf T ?_
  have hfil : (cs.filter fun k => !skipped d1.props d2.props k) = cs := by
    rw [List.filter_eq_self]
    intro k _
    simp [skipped, hph]
  rw [hfil] at TG
  have s1 := trace_two hco hq cs (fun k hk => hk) (fun k k' => gram cfg d1 F1 (ia d1.props k) (ia d1.props k') * gram cfg d2 F2 (ib d2.props k) (ib d2.props k'))
  have g : ∑ i ∈ Finset.range (pr.twoSpin + 1), gram cfg (.two pr L S' none d1 d2) .empty i i = _ := Finset.sum_congr rfl fun i _ => TG i i
  show ∑ i ∈ Finset.range (pr.twoSpin + 1), _ = _
  rw [g]
  exact s1.trans (trace_couplings hco (gram cfg d1 F1) (gram cfg d2 F2) g1 g2)

/-- **C130.**  The amplitudes of a decay to two particles that do not decay, with an orbital angular momentum and a spin that are allowed, are normalised: for every direction the
intensity, summed over all polarisations, is one. -/
theorem two_body_normalised (cfg : Config) (hb : cfg.basis = .dirac) (hm : cfg.movingParent = false) {pr p1 p2 : Properties} {L S' n1 n2 : Nat} {s1 s2 : ℤ} {q1 q2 : Mom}
    (hs : Sound (.two pr L S' none (.stable p1 n1 s1 q1) (.stable p2 n2 s2 q2))) (hn : n1 ≠ n2) (h1 : n1 < 10) (h2 : n2 < 10)
    (hLS : ∃ s : ℚ, ((L : ℚ), s) ∈ spinOrbitCouplings (fun _ => true) false pr.twoSpin p1.twoSpin p2.twoSpin ∧ (S' = 0 ∨ s = (S' : ℚ) / 2))
    (ho : OffAxis cfg (.two pr L S' none (.stable p1 n1 s1 q1) (.stable p2 n2 s2 q2)) (some .empty)) :
    intensity cfg (.two pr L S' none (.stable p1 n1 s1 q1) (.stable p2 n2 s2 q2)) = some 1 := by
  have hbin := sound_binary _ hs
  have hpar : 2 ∣ pr.twoSpin + p1.twoSpin + p2.twoSpin := hs.2.2
  obtain ⟨hs1, hs2, -⟩ := hs
  obtain ⟨s, hmem, hcs⟩ := allowed_couplings hLS
  have hco := couples_recoupling pr p1 p2 hpar L s
  have hnorm := norm_couplings hpar hmem
  obtain ⟨o1, o2, -, -⟩ := ho
  have o1 := away_act Good.empty o1
  have o2 := away_act Good.empty o2
  obtain ⟨F1, _, _, _, _, e1, G1, O1, -⟩ := child_frame cfg hs1 Good.empty (sgn := 1) (Or.inl o1) (Or.inl rfl)
  obtain ⟨F2, _, _, _, _, e2, G2, O2, -⟩ := child_frame cfg hs2 Good.empty (sgn := -1) (Or.inl o2) (Or.inr rfl)
  obtain ⟨D1, g1⟩ := stable_gram cfg hb hs1 G1 O1
  obtain ⟨D2, g2⟩ := stable_gram cfg hb hs2 G2 O2
  have hnd : (leaves (.two pr L S' none (.stable p1 n1 s1 q1) (.stable p2 n2 s2 q2))).Nodup := by simp [leaves, hn]
  have h10 : ∀ i ∈ leaves (.two pr L S' none (.stable p1 n1 s1 q1) (.stable p2 n2 s2 q2)), i < 10 := by
    intro i hi
    simp only [leaves, List.mem_append, List.mem_singleton] at hi
    rcases hi with rfl | rfl <;> assumption
  have hq : q1 0 * q1 0 + q1 1 * q1 1 ≠ 0 := by
    have hpos : (0 : ℝ) < 1e-15 := by norm_num
    exact ne_of_gt (lt_trans hpos o1)
  rw [two_body_sum cfg hm hbin hnd h10 hcs hco ⟨hs1.2.2.2.1, hs2.2.2.2.1⟩ hq e1 e2 D1 D2 g1 g2]
  congr 1

end AmpGen.Helicity
