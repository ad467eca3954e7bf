import Verif.Helicity.LemmasTurn
import Verif.Wigner.Props
import Verif.Spin.PropsCouplings
/-
Sums over the polarisations of the products.
-/
namespace AmpGen.Helicity
open Complex Spec
open AmpGen.Transform
open AmpGen.Polarisation (Mom Properties)
open AmpGen.Polarisation.Spec (OnShell)
open AmpGen.Wigner (toInt toInt_nat wigner_d wigner_D wigner_D_eq angCoordinates wigner_d_orthogonal direction)
open AmpGen.Spin (LS recouplingConstants recoupling passes_nat cg_selection_rules)

/-! ### Sums over lists -/

/-- The sum over a list. -/
noncomputable def S {α : Type} (l : List α) (f : α → ℂ) : ℂ := (l.map f).sum

theorem S_nil {α : Type} (f : α → ℂ) : S [] f = 0 := rfl
theorem S_cons {α : Type} (a : α) (l : List α) (f : α → ℂ) : S (a :: l) f = f a + S l f := by simp [S]

theorem S_congr {α : Type} {l : List α} {f g : α → ℂ} (h : ∀ a ∈ l, f a = g a) : S l f = S l g := by
  unfold S
  rw [List.map_congr_left h]

theorem S_add {α : Type} (l : List α) (f g : α → ℂ) : S l (fun a => f a + g a) = S l f + S l g := by
  induction l with
  | nil => simp [S_nil]
  | cons a l ih => rw [S_cons, S_cons, S_cons, ih]; ring

theorem S_mul {α : Type} (l : List α) (f : α → ℂ) (c : ℂ) : S l (fun a => c * f a) = c * S l f := by
  induction l with
  | nil => simp [S_nil]
  | cons a l ih => rw [S_cons, S_cons, ih]; ring

theorem S_mul' {α : Type} (l : List α) (f : α → ℂ) (c : ℂ) : S l (fun a => f a * c) = S l f * c := by
  induction l with
  | nil => simp [S_nil]
  | cons a l ih => rw [S_cons, S_cons, ih]; ring

theorem S_comm {α β : Type} (l : List α) (l' : List β) (f : α → β → ℂ) : S l (fun a => S l' fun b => f a b) = S l' fun b => S l fun a => f a b := by
  induction l with
  | nil => simp [S_nil]; induction l' with
    | nil => rfl
    | cons b l' ih => rw [S_cons, ← ih]; ring
  | cons a l ih => simp only [S_cons]; rw [ih, S_add]

theorem S_conj {α : Type} (l : List α) (f : α → ℂ) : (starRingEnd ℂ) (S l f) = S l fun a => (starRingEnd ℂ) (f a) := by
  induction l with
  | nil => simp [S_nil]
  | cons a l ih => rw [S_cons, S_cons, map_add, ih]

theorem S_append {α : Type} (l l' : List α) (f : α → ℂ) : S (l ++ l') f = S l f + S l' f := by
  unfold S; simp

theorem S_pairs {α β γ : Type} (l : List α) (l' : List β) (g : α → β → γ) (f : γ → ℂ) : S (l.flatMap fun a => l'.map fun b => g a b) f = S l fun a => S l' fun b => f (g a b) := by
  induction l with
  | nil => rfl
  | cons a l ih =>
    rw [List.flatMap_cons, S_append, ih, S_cons]
    congr 1
    unfold S
    rw [List.map_map]
    rfl

theorem S_range (n : Nat) (f : Nat → ℂ) : S (List.range n) f = ∑ i ∈ Finset.range n, f i := by
  induction n with
  | zero => rfl
  | succ n ih => rw [List.range_succ, S_append, ih, Finset.sum_range_succ]; simp [S]

theorem total_eq {α : Type} (l : List α) (f : α → Option ℂ) (g : α → ℂ) (h : ∀ a ∈ l, f a = some (g a)) : total l f = some (S l g) := by
  have key : ∀ (l : List α) (x : ℂ), (∀ a ∈ l, f a = some (g a)) →
      l.foldl (fun (s : Option ℂ) (a : α) => do let x ← s; let y ← f a; some (x + y)) (some x) = some (x + S l g) := by
    intro l
    induction l with
    | nil => intro x _; simp [S_nil]
    | cons a l ih =>
      intro x h
      rw [List.foldl_cons]
      have e : (do let x ← some x; let y ← f a; some (x + y)) = some (x + g a) := by rw [h a List.mem_cons_self]; rfl
      rw [e, ih _ fun b hb => h b (List.mem_cons_of_mem _ hb), S_cons, add_assoc]
  have := key l 0 h
  rw [zero_add] at this
  exact this

/-! ### The rotation function -/

/-- The phase of the azimuth. -/
noncomputable def phase (q : Mom) : ℂ := ((q 0 / √(q 0 * q 0 + q 1 * q 1) : ℝ) : ℂ) + I * ((q 1 / √(q 0 * q 0 + q 1 * q 1) : ℝ) : ℂ)

/-- The rotation function of a direction. -/
noncomputable def rotD (q : Mom) (N i c : Nat) : ℂ := phase q ^ ((c : ℤ) - i) * (wigner_d (q 2 / len q) (N / 2) (i - N / 2) (c - N / 2) : ℂ)

theorem rotD_eq {F : TransformSequence} (hF : Good F) {p q : Mom} (hq : act F.transforms p = q) (h : q 0 * q 0 + q 1 * q 1 ≠ 0) (N i c : Nat) :
    rotation (some F) p (N / 2) (i - N / 2) (c - N / 2) = some (rotD q N i c) := by
  unfold rotation
  rw [Option.bind_some, hF.apply, hq]
  simp only []
  have hne : q 0 * q 0 + q 1 * q 1 + q 2 * q 2 ≠ 0 := by
    have hpos : 0 < q 0 * q 0 + q 1 * q 1 := lt_of_le_of_ne (add_nonneg (mul_self_nonneg _) (mul_self_nonneg _)) (Ne.symm h)
    nlinarith [mul_self_nonneg (q 2)]
  rw [if_neg hne]
  unfold angCoordinates
  rw [if_neg h, wigner_D_eq]
  rfl

theorem phase_norm (q : Mom) (h : q 0 * q 0 + q 1 * q 1 ≠ 0) : phase q * (starRingEnd ℂ) (phase q) = 1 := by
  have hpos : 0 < q 0 * q 0 + q 1 * q 1 := lt_of_le_of_ne (add_nonneg (mul_self_nonneg _) (mul_self_nonneg _)) (Ne.symm h)
  obtain ⟨t, ht⟩ : ∃ t, √(q 0 * q 0 + q 1 * q 1) = t := ⟨_, rfl⟩
  have ht2 : t * t = q 0 * q 0 + q 1 * q 1 := by rw [← ht]; exact Real.mul_self_sqrt hpos.le
  have htp : 0 < t := by rw [← ht]; exact Real.sqrt_pos.2 hpos
  unfold phase
  rw [ht]
  have e : (q 0 / t) ^ 2 + (q 1 / t) ^ 2 = 1 := by field_simp; linear_combination -ht2
  have e' : (((q 0 / t : ℝ) : ℂ)) ^ 2 + ((q 1 / t : ℝ) : ℂ) ^ 2 = 1 := by exact_mod_cast congrArg (fun x : ℝ => (x : ℂ)) e
  simp only [map_add, map_mul, conj_ofReal, conj_I]
  generalize ((q 0 / t : ℝ) : ℂ) = x at *
  generalize ((q 1 / t : ℝ) : ℂ) = y at *
  linear_combination e' - y ^ 2 * I_mul_I

theorem phase_rz {a b : ℝ} (hab : a ^ 2 + b ^ 2 = 1) (q : Mom) : phase (rz a b q) = ((a : ℂ) + I * b) * phase q := by
  unfold phase
  have e : rz a b q 0 * rz a b q 0 + rz a b q 1 * rz a b q 1 = q 0 * q 0 + q 1 * q 1 := by
    simp [rz]
    linear_combination ((q 0) ^ 2 + (q 1) ^ 2) * hab
  rw [e]
  simp [rz]
  linear_combination -((b : ℂ) * ((q 1 : ℂ) / ((√(q 0 * q 0 + q 1 * q 1) : ℝ) : ℂ))) * I_mul_I

theorem unit_phase {a b : ℝ} (hab : a ^ 2 + b ^ 2 = 1) : ((a : ℂ) + I * b) * (starRingEnd ℂ) ((a : ℂ) + I * b) = 1 := by
  have e : (a : ℂ) ^ 2 + (b : ℂ) ^ 2 = 1 := by exact_mod_cast congrArg (fun x : ℝ => (x : ℂ)) hab
  simp only [map_add, map_mul, conj_ofReal, conj_I]
  linear_combination e - (b : ℂ) ^ 2 * I_mul_I

theorem rotD_rz {a b : ℝ} (hab : a ^ 2 + b ^ 2 = 1) (q : Mom) (N i c : Nat) : rotD (rz a b q) N i c = ((a : ℂ) + I * b) ^ ((c : ℤ) - i) * rotD q N i c := by
  unfold rotD
  rw [phase_rz hab, rz_len hab, mul_zpow]
  simp only [show rz a b q 2 = q 2 from rfl]
  ring

theorem rotD_columns {q : Mom} (h : q 0 * q 0 + q 1 * q 1 ≠ 0) (N c c' : Nat) (hc : c ≤ N) (hc' : c' ≤ N) :
    ∑ i ∈ Finset.range (N + 1), rotD q N i c * (starRingEnd ℂ) (rotD q N i c') = if c = c' then 1 else 0 := by
  obtain ⟨_, _, h1, h2⟩ := direction (q 0) (q 1) (q 2) h
  have hp := phase_norm q h
  have hp0 : phase q ≠ 0 := left_ne_zero_of_mul (by rw [hp]; exact one_ne_zero)
  have hconj : (starRingEnd ℂ) (phase q) = (phase q)⁻¹ := eq_inv_of_mul_eq_one_right hp
  have hsum : ∑ i ∈ Finset.range (N + 1), rotD q N i c * (starRingEnd ℂ) (rotD q N i c') = phase q ^ ((c : ℤ) - c') *
      ((∑ i ∈ Finset.range (N + 1), wigner_d (q 2 / len q) (N / 2) (i - N / 2) (c - N / 2) * wigner_d (q 2 / len q) (N / 2) (i - N / 2) (c' - N / 2) : ℝ) : ℂ) := by
    push_cast
    rw [Finset.mul_sum]
    refine Finset.sum_congr rfl fun i _ => ?_
    unfold rotD
    rw [map_mul, map_zpow₀, hconj, conj_ofReal, inv_zpow', show (c : ℤ) - c' = ((c : ℤ) - i) + -((c' : ℤ) - i) by ring, zpow_add₀ hp0]
    ring
  rw [hsum, (wigner_d_orthogonal (q 2 / len q) h1 h2 N c c' hc hc').2]
  split
  · rename_i hcc; rw [hcc]; simp
  · simp

/-! ### Polarisations do not change momenta and frames -/

theorem mem_polarised_two {pr : Properties} {L S' : Nat} {ha : Option (List ℝ)} {d1 d2 t' : Particle} (h : t' ∈ polarised (.two pr L S' ha d1 d2)) :
    ∃ x ∈ polarised d1, ∃ y ∈ polarised d2, t' = .two pr L S' ha x y := by
  simp only [polarised, List.mem_flatMap, List.mem_map] at h
  obtain ⟨x, hx, y, hy, rfl⟩ := h
  exact ⟨x, hx, y, hy, rfl⟩

theorem polarised_same : ∀ (t t' : Particle), t' ∈ polarised t → t'.props = t.props ∧ t'.P = t.P ∧ t'.isStable = t.isStable ∧ t'.key = t.key
  | .stable pr i pol p, t', h => by
    simp only [polarised, List.mem_map] at h
    obtain ⟨x, _, rfl⟩ := h
    exact ⟨rfl, rfl, rfl, rfl⟩
  | .one pr d, t', h => by
    simp only [polarised, List.mem_map] at h
    obtain ⟨x, hx, rfl⟩ := h
    obtain ⟨_, h2, _, h4⟩ := polarised_same d x hx
    exact ⟨rfl, h2, rfl, by simp [Particle.key, h4]⟩
  | .two .., t', h => by
    obtain ⟨x, hx, y, hy, rfl⟩ := mem_polarised_two h
    obtain ⟨_, h2, _, h4⟩ := polarised_same _ x hx
    obtain ⟨_, k2, _, k4⟩ := polarised_same _ y hy
    exact ⟨rfl, by simp [Particle.P, h2, k2], rfl, by simp [Particle.key, h4, k4]⟩
  | .many .., t', h => by
    simp only [polarised, List.mem_singleton] at h
    subst h
    exact ⟨rfl, rfl, rfl, rfl⟩

theorem frameOf_same (cfg : Config) {t t' : Particle} (h : t'.props = t.props ∧ t'.P = t.P ∧ t'.isStable = t.isStable ∧ t'.key = t.key) (head : Bool)
    (F : Option TransformSequence) (s : ℤ) : frameOf cfg head t' F s = frameOf cfg head t F s := by
  obtain ⟨h1, h2, h3, -⟩ := h
  unfold frameOf wickTransform Particle.massSq
  rw [h1, h2, h3]

theorem frame_same (cfg : Config) : ∀ (t t' : Particle), t' ∈ polarised t → ∀ (head : Bool) (F : Option TransformSequence) (s : ℤ), frame cfg head t' F s = frame cfg head t F s
  | .stable pr i pol p, t', h, head, F, s => by
    have h0 := polarised_same _ _ h
    simp only [polarised, List.mem_map] at h
    obtain ⟨x, _, rfl⟩ := h
    exact frameOf_same cfg h0 head F s
  | .one pr d, t', h, head, F, s => by
    simp only [polarised, List.mem_map] at h
    obtain ⟨x, hx, rfl⟩ := h
    exact frame_same cfg d x hx false F s
  | .two .., t', h, head, F, s => by
    have h0 := polarised_same _ _ h
    obtain ⟨x, hx, y, hy, rfl⟩ := mem_polarised_two h
    exact frameOf_same cfg h0 head F s
  | .many .., t', h, head, F, s => by
    simp only [polarised, List.mem_singleton] at h
    subst h
    rfl

end AmpGen.Helicity
