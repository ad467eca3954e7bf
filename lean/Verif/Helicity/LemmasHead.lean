import Verif.Helicity.LemmasInvariant
import Verif.Helicity.LemmasKeys
/-
The head of the decay.
-/
namespace AmpGen.Helicity
open Complex Spec
open AmpGen.Transform
open AmpGen.Polarisation (Mom Properties)
open AmpGen.Polarisation.Spec (OnShell)
open AmpGen.Spin (LS)

theorem sound_binary : ∀ t : Particle, Sound t → Binary t
  | .stable .., _ => trivial
  | .one _ d, h => sound_binary d h.2
  | .two _ _ _ _ d1 d2, h => ⟨sound_binary d1 h.1, sound_binary d2 h.2.1⟩
  | .many .., h => h.elim

theorem rotated_leaves (R : Matrix (Fin 3) (Fin 3) ℝ) : ∀ t : Particle, leaves (rotated R t) = leaves t
  | .stable .. => rfl
  | .one _ d => rotated_leaves R d
  | .two _ _ _ _ d1 d2 => by simp only [rotated, leaves, rotated_leaves R d1, rotated_leaves R d2]
  | .many .. => rfl

theorem polarised_leaves : ∀ (t t' : Particle), t' ∈ polarised t → leaves t' = leaves t ∧ (Binary t → Binary t')
  | .stable .., t', h => by
    simp only [polarised, List.mem_map] at h
    obtain ⟨s, -, rfl⟩ := h
    exact ⟨rfl, fun h => h⟩
  | .one _ d, t', h => by
    simp only [polarised, List.mem_map] at h
    obtain ⟨s, hs, rfl⟩ := h
    exact polarised_leaves d s hs
  | .two _ _ _ _ d1 d2, t', h => by
    obtain ⟨x, hx, y, hy, rfl⟩ := mem_polarised_two h
    obtain ⟨a1, a2⟩ := polarised_leaves d1 x hx
    obtain ⟨b1, b2⟩ := polarised_leaves d2 y hy
    exact ⟨by simp only [leaves, a1, b1], fun h => ⟨a2 h.1, b2 h.2⟩⟩
  | .many .., t', h => by
    simp only [polarised, List.mem_singleton] at h
    subst h
    exact ⟨rfl, fun h => h⟩

theorem sumOf_some {α : Type} (l : List α) (f : α → ℝ) : sumOf (l.map fun a => some (f a)) = some (l.map f).sum := by
  induction l with
  | nil => rfl
  | cons a l ih => simp [sumOf, ih]

theorem list_comm {α β : Type} (l : List α) (l' : List β) (f : α → β → ℝ) : (l.map fun a => (l'.map fun b => f a b).sum).sum = (l'.map fun b => (l.map fun a => f a b).sum).sum := by
  induction l with
  | nil => simp
  | cons a l ih =>
    simp only [List.map_cons, List.sum_cons, ih]
    rw [← List.sum_map_add]

theorem gram_diag (cfg : Config) (t : Particle) (F : TransformSequence) (i : Nat) : gram cfg t F i i = (((polarised t).map fun t' => normSq (A cfg t' F i)).sum : ℝ) := by
  unfold gram S
  rw [← Complex.ofRealHom_eq_coe, map_list_sum, List.map_map]
  congr 1
  refine List.map_congr_left fun x _ => ?_
  simp [mul_conj]

/-- The amplitudes of the polarisations, in the frame of the head. -/
theorem polarised_amplitude (cfg : Config) {t : Particle} (hb : Binary t) (hn : (leaves t).Nodup) (h : ∀ i ∈ leaves t, i < 10) {F : TransformSequence}
    (hF : frame cfg true t (some .empty) 1 = some F) (hd : Defined cfg t F) : ∀ t' ∈ polarised t, ∀ a ≤ t.props.twoSpin,
      amplitude cfg t' (a - (t.props.twoSpin : ℝ) / 2) = some (A cfg t' F a) := by
  intro t' ht' a ha
  obtain ⟨l1, l2⟩ := polarised_leaves t t' ht'
  rw [amplitude_value cfg (l2 hb) (l1 ▸ hn) (l1 ▸ h), frame_same cfg t t' ht', hF]
  exact hd t' ht' a ha

/-- The intensity is the sum of the diagonal elements. -/
theorem intensity_gram (cfg : Config) {t : Particle} (hb : Binary t) (hn : (leaves t).Nodup) (h : ∀ i ∈ leaves t, i < 10) {F : TransformSequence}
    (hF : frame cfg true t (some .empty) 1 = some F) (hd : Defined cfg t F) {x : ℝ} (hx : ∑ i ∈ Finset.range (t.props.twoSpin + 1), gram cfg t F i i = x) :
    intensity cfg t = some x := by
  have hA := polarised_amplitude cfg hb hn h hF hd
  unfold intensity
  have e : ((polarised t).flatMap fun t' => (List.range (t.props.twoSpin + 1)).map fun (a : Nat) => (amplitude cfg t' (a - (t.props.twoSpin : ℝ) / 2)).map normSq) =
      ((polarised t).flatMap fun t' => (List.range (t.props.twoSpin + 1)).map fun (a : Nat) => (t', a)).map fun z => some (normSq (A cfg z.1 F z.2)) := by
    rw [List.map_flatMap]
    refine List.flatMap_congr fun t' ht' => ?_
    rw [List.map_map]
    refine List.map_congr_left fun a ha => ?_
    rw [hA t' ht' a (by simp at ha; omega)]
    rfl
  rw [e, sumOf_some]
  congr 1
  have : (((((polarised t).flatMap fun t' => (List.range (t.props.twoSpin + 1)).map fun (a : Nat) => (t', a)).map fun z => normSq (A cfg z.1 F z.2)).sum : ℝ) : ℂ) = x := by
    rw [← hx]
    have : (((polarised t).flatMap fun t' => (List.range (t.props.twoSpin + 1)).map fun (a : Nat) => (t', a)).map fun z => normSq (A cfg z.1 F z.2)).sum =
        ∑ i ∈ Finset.range (t.props.twoSpin + 1), ((polarised t).map fun t' => normSq (A cfg t' F i)).sum := by
      rw [← AmpGen.Spin.list_sum_range, ← list_comm, List.map_flatMap]
      generalize polarised t = l
      induction l with
      | nil => rfl
      | cons b l ih =>
        rw [List.flatMap_cons, List.sum_append, ih, List.map_cons, List.sum_cons, List.map_map]
        rfl
    rw [this]
    push_cast
    refine Finset.sum_congr rfl fun i _ => ?_
    rw [gram_diag]
  exact_mod_cast this

theorem act_empty (q : Mom) : act TransformSequence.empty.transforms q = q := rfl

/-- The frames of the products of a head at rest. -/
theorem head_rel (cfg : Config) {R : Matrix (Fin 3) (Fin 3) ℝ} (hR : R * R.transpose = 1) (hd : R.det = 1) {d1 d2 : Particle} (hs1 : Sound d1) (hs2 : Sound d2)
    (h0 : d2.P 0 = -d1.P 0) (h1 : d2.P 1 = -d1.P 1) (h2 : d2.P 2 = -d1.P 2) (hc : d1.P 0 * d1.P 0 + d1.P 1 * d1.P 1 > 1e-15)
    (hc' : turned R d1.P 0 * turned R d1.P 0 + turned R d1.P 1 * turned R d1.P 1 > 1e-15) :
    ∃ a b F1 F1' F2 F2', a ^ 2 + b ^ 2 = 1 ∧ frame cfg false d1 (some .empty) 1 = some F1 ∧ frame cfg false (rotated R d1) (some .empty) 1 = some F1' ∧
      frame cfg false d2 (some .empty) (-1) = some F2 ∧ frame cfg false (rotated R d2) (some .empty) (-1) = some F2' ∧
      Good F1 ∧ Good F1' ∧ Good F2 ∧ Good F2' ∧ Own d1 F1 ∧ Own (rotated R d1) F1' ∧ Own d2 F2 ∧ Own (rotated R d2) F2' ∧ Rel R a b F1 F1' ∧ Rel R a (-b) F2 F2' := by
  have k0 : turned R d2.P 0 = -turned R d1.P 0 := by simp [turned, h0, h1, h2]; ring
  have k1 : turned R d2.P 1 = -turned R d1.P 1 := by simp [turned, h0, h1, h2]; ring
  have k2 : turned R d2.P 2 = -turned R d1.P 2 := by simp [turned, h0, h1, h2]; ring
  obtain ⟨F1, c1, s1, f1, g1, e1, G1, O1, A1, E1⟩ := child_frame cfg hs1 Good.empty (sgn := 1) (Or.inl hc) (Or.inl rfl)
  obtain ⟨F2, c2, s2, f2, g2, e2, G2, O2, A2, E2⟩ := child_frame cfg hs2 Good.empty (sgn := -1) (Or.inl (by rw [act_empty, h0, h1, neg_mul_neg, neg_mul_neg]; exact hc)) (Or.inr rfl)
  obtain ⟨F1', c1', s1', f1', g1', e1', G1', O1', A1', E1'⟩ := child_frame cfg (rotated_sound hR _ hs1) Good.empty (sgn := 1) (Or.inl (by rw [act_empty, rotated_P]; exact hc')) (Or.inl rfl)
  obtain ⟨F2', c2', s2', f2', g2', e2', G2', O2', A2', E2'⟩ := child_frame cfg (rotated_sound hR _ hs2) Good.empty (sgn := -1)
    (Or.inl (by rw [act_empty, rotated_P, k0, k1, neg_mul_neg, neg_mul_neg]; exact hc')) (Or.inr rfl)
  rw [act_empty] at A1 A2 A1' A2'
  rw [rotated_P] at A1' A2'
  have hpos : (0 : ℝ) < 1e-15 := by norm_num
  have hl : len d1.P ≠ 0 := by
    have := len_sq d1.P
    rintro h
    rw [h] at this
    nlinarith [mul_self_nonneg (d1.P 2)]
  obtain ⟨a, b, hab, hrz⟩ := head_turn hR hd A1 A1' hl
  have b2 := angles_back h0 h1 h2 A1 A2 (by linarith)
  have b2' := angles_back k0 k1 k2 A1' A2' (by linarith)
  refine ⟨a, b, F1, F1', F2, F2', hab, e1, e1', e2, e2', G1, G1', G2, G2', O1, O1', O2, O2', fun q => ?_, fun q => ?_⟩
  · rw [E1, E1', act_empty, act_empty, act_empty, act_empty, rotated_P, turned_energy, inner_rotated, rotated_massSq hR (inner_sound _ hs1), ← boostz_rz]
    congr 1
    unfold turn
    rw [if_pos rfl, if_pos rfl]
    exact hrz q
  · rw [E2, E2', act_empty, act_empty, act_empty, act_empty, rotated_P, turned_energy, inner_rotated, rotated_massSq hR (inner_sound _ hs2), ← boostz_rz]
    congr 1
    unfold turn
    rw [if_neg (by norm_num), if_neg (by norm_num), b2, b2', hrz, turned_energy]
    funext i
    fin_cases i <;> simp [rz] <;> ring

theorem head_phase {w : ℂ} (hw : w * (starRingEnd ℂ) w = 1) {a a' b b' : Nat} (h : ((a : ℤ) - a') - ((b : ℤ) - b') = 0) :
    w ^ ((a' : ℤ) - a) * ((starRingEnd ℂ) w) ^ ((b' : ℤ) - b) = 1 := by
  have h0 : w ≠ 0 := left_ne_zero_of_mul_eq_one hw
  have hc : (starRingEnd ℂ) w = w⁻¹ := eq_inv_of_mul_eq_one_right hw
  rw [hc, inv_zpow', ← zpow_add₀ h0, show ((a' : ℤ) - a) + -((b' : ℤ) - b) = 0 by omega, zpow_zero]

/-- The sum over the projections of the head. -/
theorem trace_two {pr p1 p2 : Properties} {cs : List LS} (hco : Couples pr p1 p2 cs) {q : Mom} (hq : q 0 * q 0 + q 1 * q 1 ≠ 0) (l : List LS) (hl : ∀ k ∈ l, k ∈ cs) (G : LS → LS → ℂ) :
    (∑ i ∈ Finset.range (pr.twoSpin + 1), S l fun k => S l fun k' => k.factor * k'.factor * (rotD q pr.twoSpin i (ic pr k) * (starRingEnd ℂ) (rotD q pr.twoSpin i (ic pr k'))) * G k k') =
      S l fun k => S l fun k' => k.factor * k'.factor * (if ic pr k = ic pr k' then 1 else 0) * G k k' := by
  rw [← S_range, S_comm]
  refine S_congr fun k hk => ?_
  rw [S_comm]
  refine S_congr fun k' hk' => ?_
  rw [S_mul', S_mul, S_range, rotD_columns hq _ _ _ (couples_index hco (hl k hk)).2.2.1 (couples_index hco (hl k' hk')).2.2.1]

end AmpGen.Helicity
