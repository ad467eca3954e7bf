import Verif.Sampler.Spec
import Mathlib.MeasureTheory.Group.LIntegral
import Mathlib.MeasureTheory.Measure.Prod
import Mathlib.MeasureTheory.Measure.Haar.OfBasis
import Mathlib.MeasureTheory.Measure.Haar.Unique
import Mathlib.Tactic.Linarith
import Mathlib.Tactic.FieldSimp
/-
C169: the sampler of parameters keeps the distribution.
-/
namespace AmpGen.Sampler
open MeasureTheory ENNReal

variable {ι : Type} [Fintype ι]

open Classical in
theorem uniform_integral {tx ty : ℝ} (hx : 0 ≤ tx) (hy : 0 ≤ ty) (a b : ℝ≥0∞) :
    ENNReal.ofReal tx * ∫⁻ u in Set.Ico (0 : ℝ) 1, (if Accept tx ty u then a else b) =
      ENNReal.ofReal (min tx ty) * a + ENNReal.ofReal (tx - min tx ty) * b := by
  by_cases h0 : tx = 0
  · subst h0
    simp [min_eq_left hy]
  · have hpos : 0 < tx := lt_of_le_of_ne hx (Ne.symm h0)
    have hr : 0 ≤ ty / tx := div_nonneg hy hx
    have hm0 : 0 ≤ min (ty / tx) 1 := le_min hr zero_le_one
    have hm1 : min (ty / tx) 1 ≤ 1 := min_le_right _ _
    have hu : Set.Ico (0 : ℝ) 1 = Set.Ico 0 (min (ty / tx) 1) ∪ Set.Ico (min (ty / tx) 1) 1 := (Set.Ico_union_Ico_eq_Ico hm0 hm1).symm
    have hd : Disjoint (Set.Ico (0 : ℝ) (min (ty / tx) 1)) (Set.Ico (min (ty / tx) 1) 1) := by
      rw [Set.disjoint_left]
      rintro u ⟨_, h1⟩ ⟨h2, _⟩
      linarith
    rw [hu, lintegral_union measurableSet_Ico hd]
    have e1 : ∫⁻ u in Set.Ico (0 : ℝ) (min (ty / tx) 1), (if Accept tx ty u then a else b) = a * ENNReal.ofReal (min (ty / tx) 1) := by
      rw [setLIntegral_congr_fun (g := fun _ => a) measurableSet_Ico, setLIntegral_const, Real.volume_Ico, sub_zero]
      rintro u ⟨_, h1⟩
      have : Accept tx ty u := by
        unfold Accept
        rw [if_neg h0]
        exact lt_of_lt_of_le h1 (min_le_left _ _)
      simp [this]
    have e2 : ∫⁻ u in Set.Ico (min (ty / tx) 1) (1 : ℝ), (if Accept tx ty u then a else b) = b * ENNReal.ofReal (1 - min (ty / tx) 1) := by
      rw [setLIntegral_congr_fun (g := fun _ => b) measurableSet_Ico, setLIntegral_const, Real.volume_Ico]
      rintro u ⟨h1, h2⟩
      have : ¬ Accept tx ty u := by
        unfold Accept
        rw [if_neg h0]
        rcases min_le_iff.1 h1 with h | h
        · exact not_lt.2 h
        · exact absurd h2 (not_lt.2 h)
      simp [this]
    have hm : tx * min (ty / tx) 1 = min tx ty := by
      rw [mul_min_of_nonneg _ _ hx, mul_div_cancel₀ _ h0, mul_one, min_comm]
    rw [e1, e2, mul_add]
    congr 1
    · rw [← hm, ENNReal.ofReal_mul hx]
      ring
    · rw [show tx - min tx ty = tx * (1 - min (ty / tx) 1) by rw [mul_sub, mul_one, hm], ENNReal.ofReal_mul hx]
      ring

theorem propose_eq (errors x g : ι → ℝ) : propose errors x g = x + errors * g := by
  funext i
  simp [propose]

theorem measurable_propose (errors : ι → ℝ) : Measurable fun p : (ι → ℝ) × (ι → ℝ) => propose errors p.1 p.2 := by
  simp only [propose_eq]
  exact measurable_fst.add (measurable_const.mul measurable_snd)

variable {target : (ι → ℝ) → ℝ} {φ : (ι → ℝ) → ℝ≥0∞} {errors : ι → ℝ}

theorem swap_moves (ht : Measurable target) (hφ : Measurable φ) (he : ∀ g, φ (-g) = φ g) {f : (ι → ℝ) → ℝ≥0∞} (hf : Measurable f) :
    ∫⁻ x, ∫⁻ g, φ g * (ENNReal.ofReal (min (target x) (target (propose errors x g))) * f (propose errors x g)) =
      ∫⁻ x, ∫⁻ g, φ g * (ENNReal.ofReal (min (target x) (target (propose errors x g))) * f x) := by
  have mp := measurable_propose errors
  have mM : Measurable fun p : (ι → ℝ) × (ι → ℝ) => ENNReal.ofReal (min (target p.1) (target (propose errors p.1 p.2))) :=
    ((ht.comp measurable_fst).min (ht.comp mp)).ennreal_ofReal
  have m1 : Measurable fun p : (ι → ℝ) × (ι → ℝ) =>
      φ p.2 * (ENNReal.ofReal (min (target p.1) (target (propose errors p.1 p.2))) * f (propose errors p.1 p.2)) :=
    (hφ.comp measurable_snd).mul (mM.mul (hf.comp mp))
  have m2 : Measurable fun p : (ι → ℝ) × (ι → ℝ) =>
      φ p.2 * (ENNReal.ofReal (min (target p.1) (target (propose errors p.1 p.2))) * f p.1) :=
    (hφ.comp measurable_snd).mul (mM.mul (hf.comp measurable_fst))
  rw [lintegral_lintegral_swap (f := fun x g => φ g * (ENNReal.ofReal (min (target x) (target (propose errors x g))) * f (propose errors x g))) m1.aemeasurable,
    lintegral_lintegral_swap (f := fun x g => φ g * (ENNReal.ofReal (min (target x) (target (propose errors x g))) * f x)) m2.aemeasurable]
  rw [← lintegral_neg_eq_self]
  apply lintegral_congr
  intro g
  rw [← lintegral_add_right_eq_self _ (errors * g)]
  apply lintegral_congr
  intro x
  rw [he]
  simp only [propose_eq, mul_neg, add_neg_cancel_right]
  rw [min_comm]

theorem measurableSet_accept (ht : Measurable target) (errors : ι → ℝ) :
    MeasurableSet {p : ((ι → ℝ) × (ι → ℝ)) × ℝ | Accept (target p.1.1) (target (propose errors p.1.1 p.1.2)) p.2} := by
  have m1 : Measurable fun p : ((ι → ℝ) × (ι → ℝ)) × ℝ => target p.1.1 := ht.comp (measurable_fst.comp measurable_fst)
  have m2 : Measurable fun p : ((ι → ℝ) × (ι → ℝ)) × ℝ => target (propose errors p.1.1 p.1.2) := ht.comp ((measurable_propose errors).comp measurable_fst)
  have e : {p : ((ι → ℝ) × (ι → ℝ)) × ℝ | Accept (target p.1.1) (target (propose errors p.1.1 p.1.2)) p.2} =
      ({p | target p.1.1 = 0} ∩ {p | 0 < target (propose errors p.1.1 p.1.2)}) ∪
        ({p | target p.1.1 = 0}ᶜ ∩ {p | p.2 < target (propose errors p.1.1 p.1.2) / target p.1.1}) := by
    ext p
    simp only [Accept, Set.mem_setOf_eq, Set.mem_union, Set.mem_inter_iff, Set.mem_compl_iff, gt_iff_lt]
    by_cases h : target p.1.1 = 0 <;> simp [h]
  have z : MeasurableSet {p : ((ι → ℝ) × (ι → ℝ)) × ℝ | target p.1.1 = 0} := m1 (measurableSet_singleton 0)
  rw [e]
  exact (z.inter (measurableSet_lt measurable_const m2)).union (z.compl.inter (measurableSet_lt measurable_snd (m2.div m1)))

theorem measurable_step (ht : Measurable target) (errors : ι → ℝ) :
    Measurable fun p : ((ι → ℝ) × (ι → ℝ)) × ℝ => step target errors p.1.1 p.1.2 p.2 := by
  unfold step
  exact Measurable.ite (measurableSet_accept ht errors) ((measurable_propose errors).comp measurable_fst) (measurable_fst.comp measurable_fst)

/-- The average over one turn. -/
noncomputable def turn (target : (ι → ℝ) → ℝ) (errors : ι → ℝ) (φ : (ι → ℝ) → ℝ≥0∞) (f : (ι → ℝ) → ℝ≥0∞) (x : ι → ℝ) : ℝ≥0∞ :=
  ∫⁻ g, φ g * ∫⁻ u in Set.Ico (0 : ℝ) 1, f (step target errors x g u)

theorem measurable_turn (ht : Measurable target) (hφ : Measurable φ) {f : (ι → ℝ) → ℝ≥0∞} (hf : Measurable f) : Measurable (turn target errors φ f) := by
  unfold turn
  apply Measurable.lintegral_prod_right (f := fun x g => φ g * ∫⁻ u in Set.Ico (0 : ℝ) 1, f (step target errors x g u))
  refine (hφ.comp measurable_snd).mul ?_
  exact Measurable.lintegral_prod_right' (f := fun p : ((ι → ℝ) × (ι → ℝ)) × ℝ => f (step target errors p.1.1 p.1.2 p.2)) (hf.comp (measurable_step ht errors))

theorem turn_invariant (ht : Measurable target) (h0 : ∀ x, 0 ≤ target x) (hφ : Measurable φ) (he : ∀ g, φ (-g) = φ g) (h1 : ∫⁻ g, φ g = 1)
    {f : (ι → ℝ) → ℝ≥0∞} (hf : Measurable f) :
    ∫⁻ x, ENNReal.ofReal (target x) * turn target errors φ f x = ∫⁻ x, ENNReal.ofReal (target x) * f x := by
  classical
  have mp := measurable_propose errors
  have mt : Measurable fun p : (ι → ℝ) × (ι → ℝ) => target p.1 := ht.comp measurable_fst
  have mM : Measurable fun p : (ι → ℝ) × (ι → ℝ) => min (target p.1) (target (propose errors p.1 p.2)) := mt.min (ht.comp mp)
  have m1 : Measurable fun p : (ι → ℝ) × (ι → ℝ) =>
      φ p.2 * (ENNReal.ofReal (min (target p.1) (target (propose errors p.1 p.2))) * f (propose errors p.1 p.2)) :=
    (hφ.comp measurable_snd).mul (mM.ennreal_ofReal.mul (hf.comp mp))
  have m2 : Measurable fun p : (ι → ℝ) × (ι → ℝ) =>
      φ p.2 * (ENNReal.ofReal (min (target p.1) (target (propose errors p.1 p.2))) * f p.1) :=
    (hφ.comp measurable_snd).mul (mM.ennreal_ofReal.mul (hf.comp measurable_fst))
  have m1x : ∀ x, Measurable fun g => φ g * (ENNReal.ofReal (min (target x) (target (propose errors x g))) * f (propose errors x g)) :=
    fun x => m1.comp measurable_prodMk_left
  have m2x : ∀ x, Measurable fun g => φ g * (ENNReal.ofReal (min (target x) (target (propose errors x g))) * f x) :=
    fun x => m2.comp measurable_prodMk_left
  have hx : ∀ x, ENNReal.ofReal (target x) * turn target errors φ f x =
      (∫⁻ g, φ g * (ENNReal.ofReal (min (target x) (target (propose errors x g))) * f (propose errors x g))) +
        ∫⁻ g, φ g * (ENNReal.ofReal (target x - min (target x) (target (propose errors x g))) * f x) := by
    intro x
    unfold turn
    rw [← lintegral_const_mul' _ _ ENNReal.ofReal_ne_top, ← lintegral_add_left (m1x x)]
    apply lintegral_congr
    intro g
    have := uniform_integral (h0 x) (h0 (propose errors x g)) (f (propose errors x g)) (f x)
    rw [← mul_add, ← this]
    have e : ∀ u, f (step target errors x g u) = if Accept (target x) (target (propose errors x g)) u then f (propose errors x g) else f x := by
      intro u
      unfold step
      split <;> simp_all
    simp only [e]
    ring
  have hy : ∀ x, (∫⁻ g, φ g * (ENNReal.ofReal (min (target x) (target (propose errors x g))) * f x)) +
        (∫⁻ g, φ g * (ENNReal.ofReal (target x - min (target x) (target (propose errors x g))) * f x)) = ENNReal.ofReal (target x) * f x := by
    intro x
    rw [← lintegral_add_left (m2x x)]
    have e : ∀ g, φ g * (ENNReal.ofReal (min (target x) (target (propose errors x g))) * f x) +
        φ g * (ENNReal.ofReal (target x - min (target x) (target (propose errors x g))) * f x) = φ g * (ENNReal.ofReal (target x) * f x) := by
      intro g
      rw [← mul_add, ← add_mul, ← ENNReal.ofReal_add (le_min (h0 _) (h0 _)) (sub_nonneg.2 (min_le_left _ _))]
      congr 3
      ring
    simp only [e]
    rw [lintegral_mul_const _ hφ, h1, one_mul]
  simp only [hx]
  rw [lintegral_add_left (Measurable.lintegral_prod_right' m1), swap_moves ht hφ he hf, ← lintegral_add_left (Measurable.lintegral_prod_right' m2)]
  exact lintegral_congr hy

theorem average_run (ht : Measurable target) (hφ : Measurable φ) {f : (ι → ℝ) → ℝ≥0∞} (hf : Measurable f) : ∀ n x,
    average φ n (fun draws => f (run target errors draws x)) = (turn target errors φ)^[n] f x := by
  intro n
  induction n with
  | zero => intro x; rfl
  | succ n ih =>
    intro x
    rw [Function.iterate_succ_apply']
    unfold average
    simp only [run, ih]
    rfl

theorem measurable_iterate (ht : Measurable target) (hφ : Measurable φ) {f : (ι → ℝ) → ℝ≥0∞} (hf : Measurable f) (n : Nat) :
    Measurable ((turn target errors φ)^[n] f) := by
  induction n with
  | zero => exact hf
  | succ n ih =>
    rw [Function.iterate_succ_apply']
    exact measurable_turn ht hφ ih

/-- C169.  The sampler keeps the target distribution: if the first point has the target as its (not normalised) density, then the last point has it too, after any
number of turns.  This holds for any sizes of the steps and for all random moves that are as likely as their opposites, as normal ones are.

Missing: the first point is drawn from a normal distribution instead; nothing is said about how close 500 turns bring it to the target. -/
theorem sampler_invariant_partial (ht : Measurable target) (h0 : ∀ x, 0 ≤ target x) (hφ : Measurable φ) (he : ∀ g, φ (-g) = φ g) (h1 : ∫⁻ g, φ g = 1)
    {f : (ι → ℝ) → ℝ≥0∞} (hf : Measurable f) (n : Nat) :
    ∫⁻ x, ENNReal.ofReal (target x) * average φ n (fun draws => f (run target errors draws x)) = ∫⁻ x, ENNReal.ofReal (target x) * f x := by
  simp only [average_run ht hφ hf]
  induction n with
  | zero => rfl
  | succ n ih =>
    rw [← ih]
    simp only [Function.iterate_succ_apply']
    exact turn_invariant ht h0 hφ he h1 (measurable_iterate ht hφ hf n)

/-- The hypotheses are met by moves that are uniform in a cube and by a target that falls with the distance from zero. -/
example : ∃ (target : (Fin 2 → ℝ) → ℝ) (φ : (Fin 2 → ℝ) → ℝ≥0∞), Measurable target ∧ (∀ x, 0 ≤ target x) ∧ target 0 ≠ target 1 ∧ Measurable φ ∧
    (∀ g, φ (-g) = φ g) ∧ ∫⁻ g, φ g = 1 := by
  refine ⟨fun x => 1 / (1 + x 0 ^ 2 + x 1 ^ 2), (Set.Icc (fun _ => -1 / 2) (fun _ => 1 / 2)).indicator 1, ?_, fun x => by positivity, by norm_num,
    measurable_one.indicator measurableSet_Icc, ?_, ?_⟩
  · exact measurable_const.div ((measurable_const.add ((measurable_pi_apply 0).pow_const 2)).add ((measurable_pi_apply 1).pow_const 2))
  · intro g
    have : -g ∈ Set.Icc (fun _ : Fin 2 => (-1 / 2 : ℝ)) (fun _ => 1 / 2) ↔ g ∈ Set.Icc (fun _ : Fin 2 => (-1 / 2 : ℝ)) (fun _ => 1 / 2) := by
      simp only [Set.mem_Icc, Pi.le_def, Pi.neg_apply]
      constructor <;> rintro ⟨a, b⟩ <;> exact ⟨fun i => by have := b i; linarith, fun i => by have := a i; linarith⟩
    by_cases h : g ∈ Set.Icc (fun _ : Fin 2 => (-1 / 2 : ℝ)) (fun _ => 1 / 2)
    · rw [Set.indicator_of_mem h, Set.indicator_of_mem (this.2 h)]
      rfl
    · rw [Set.indicator_of_notMem h, Set.indicator_of_notMem (fun c => h (this.1 c))]
  · rw [lintegral_indicator_one measurableSet_Icc, Real.volume_Icc_pi]
    norm_num

/-- C169.  A point that is at least as likely as the present one is always taken; and whatever the random numbers are, the sampler never goes from a point that is
possible to one that is not. -/
theorem sampler_moves (h0 : ∀ x, 0 ≤ target x) :
    (∀ (x g : ι → ℝ) (u : ℝ), u < 1 → 0 < target x → target x ≤ target (propose errors x g) → step target errors x g u = propose errors x g) ∧
    ∀ (draws : List ((ι → ℝ) × ℝ)) (x : ι → ℝ), (∀ d ∈ draws, 0 ≤ d.2) → 0 < target x → 0 < target (run target errors draws x) := by
  constructor
  · intro x g u hu hx hy
    have : Accept (target x) (target (propose errors x g)) u := by
      unfold Accept
      rw [if_neg hx.ne']
      exact lt_of_lt_of_le hu ((one_le_div hx).2 hy)
    simp [step, this]
  · intro draws
    induction draws with
    | nil => intro x _ hx; exact hx
    | cons d draws ih =>
      obtain ⟨g, u⟩ := d
      intro x hd hx
      unfold run
      refine ih _ (fun d hm => hd d (by simp [hm])) ?_
      unfold step
      split
      · next ha =>
        unfold Accept at ha
        rw [if_neg hx.ne'] at ha
        have hu : 0 ≤ u := hd (g, u) (by simp)
        have hq : 0 < target (propose errors x g) / target x := lt_of_le_of_lt hu ha
        by_contra hn
        have : target (propose errors x g) = 0 := le_antisymm (not_lt.1 hn) (h0 _)
        rw [this, zero_div] at hq
        exact lt_irrefl _ hq
      · exact hx

/-- The hypotheses are met by a target that is zero for negative numbers: a move to the right is taken, one to the left is not. -/
example : step (fun x : Fin 1 → ℝ => if 0 ≤ x 0 then 1 else 0) 1 0 1 (1 / 2) = 1 ∧ step (fun x : Fin 1 → ℝ => if 0 ≤ x 0 then 1 else 0) 1 0 (-1) (1 / 2) = 0 := by
  constructor
  · unfold step
    rw [if_pos (by unfold Accept propose; norm_num)]
    funext i
    simp [propose]
  · unfold step
    rw [if_neg (by unfold Accept propose; norm_num)]

end AmpGen.Sampler
