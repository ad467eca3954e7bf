import Verif.Polarised.LemmasSum
import Mathlib.LinearAlgebra.Matrix.Determinant.Basic
import Mathlib.Tactic.NormNum
import Mathlib.Tactic.LinearCombination
import Mathlib.Tactic.Linarith
import Mathlib.Tactic.Positivity
/-
C14: the polarised sum is normalised; C13 for the polarised sum; C51: density matrices.
-/
namespace AmpGen.Polarised

open AmpGen.Coherent (Req SimEvent average averageC averageC_ofReal averageC_mul list_range_sum foldl_range_sum
  triangle pairs_sum)

variable {P X : Type} {W : Nat}

/-! ### C14 -/

theorem run_prepare (A : PAmps P X) (hA : A.WF) (sched : List Req → List Req) (hs : ∀ q, (sched q).Perm q)
    (p : P) (ops : List (Op P X W)) :
    ∃ s0 : St P X W, s0.par = lastPar p ops ∧ s0.data = lastData none ops ∧ s0.integ.events = lastSim none ops ∧
      Prepared A s0 (run A sched p (ops ++ [.prepare])) := by
  obtain ⟨h0, h1, h2, h3⟩ := run_spec A hA sched hs ops (St.init A p : St P X W) (inv_init A hA p)
  refine ⟨_, h1, h2, h3, ?_⟩
  unfold run
  rw [List.foldl_append]
  exact prepare_spec A hA sched hs h0

theorem evaluator_eq (A : PAmps P X) {s0 s : St P X W} (h : Prepared A s0 s) (x : X) :
    s.evaluator A x = A.weight s0.par / s.norm * A.density s0.par x := by
  unfold St.evaluator
  rw [h.par]
  congr 1
  apply probExpr_eq
  intro i hi c hc
  have e1 : (A.s1 * A.s2 * i + c) / (A.s1 * A.s2) = i := by
    rw [Nat.mul_add_div (by omega), Nat.div_eq_of_lt hc, Nat.add_zero]
  have e2 : (A.s1 * A.s2 * i + c) % (A.s1 * A.s2) = c := by
    rw [Nat.mul_add_mod, Nat.mod_eq_of_lt hc]
  simp only [e1, e2, h.buffer]

/-- C14: after any history ending in `prepare` with an integration sample attached, the norm is
the average over the sample of `Re tr(ρ T ρ_f T†)`, the values returned for data events and
by the evaluator are that density for the current parameters, scaled by weight over norm,
and they average to the weight.  A polarisation fraction is covered for a spinless initial
state only. -/
theorem polarised_normalised_partial (A : PAmps P X) (hA : A.WF) (hf : A.frac.isSome → A.s1 = 1 ∧ A.s2 = 2)
    (sched : List Req → List Req) (hs : ∀ q, (sched q).Perm q) (p : P) (ops : List (Op P X W))
    (evs : List (Fin W → SimEvent X)) (he : lastSim none ops = some evs) :
    let s := run A sched p (ops ++ [.prepare])
    let q := lastPar p ops
    s.norm = average evs (A.density q) ∧
    (∀ data, lastData none ops = some data → ∀ b e l, data[b]? = some e →
      s.prob A b l = A.weight q / s.norm * A.density q (e l)) ∧
    (∀ x, s.evaluator A x = A.weight q / s.norm * A.density q x) ∧
    (s.norm ≠ 0 → average evs (s.evaluator A) = A.weight q) := by
  intro s q
  obtain ⟨s0, h1, h2, h3, hp⟩ := run_prepare A hA sched hs p ops
  have hq : s0.par = q := h1
  have hnorm : s.norm = average evs (A.density q) := by
    rw [hp.norm (by rw [hp.ievents, h3, he]; rfl)]
    rw [normSum_eq A s0.par (evs := evs) (by rw [hp.ievents, h3, he]) hp.ncache, hq]
    congr 1
    funext e
    exact normDensity_density A q e hf
  have hev : ∀ x, s.evaluator A x = A.weight q / s.norm * A.density q x := by
    intro x
    rw [← hq]
    exact evaluator_eq A hp x
  refine ⟨hnorm, ?_, hev, ?_⟩
  · intro data hd b e l hb
    show A.weight s.par / s.norm * s.pdf b l = _
    rw [hp.par, hp.pdf, hq]
    congr 1
    apply probExpr_eq
    intro i hi c hc
    rw [← hq]
    exact hp.dcache i hi data (by rw [hp.sdata, h2, hd]) b e l hb c hc
  · intro hne
    have : ((average evs (s.evaluator A) : ℝ) : ℂ) = ((A.weight q / s.norm * s.norm : ℝ) : ℂ) := by
      have e1 : (fun x => ((s.evaluator A x : ℝ) : ℂ)) =
          fun x => ((A.weight q / s.norm : ℝ) : ℂ) * ((A.density q x : ℝ) : ℂ) := by
        funext x; rw [hev x]; push_cast; rfl
      rw [← averageC_ofReal, e1, averageC_mul, averageC_ofReal, ← hnorm]
      push_cast; rfl
    rw [Complex.ofReal_inj.mp this]
    exact div_mul_cancel₀ _ hne

/-- A polarised sum with two elements, spin one half to spin one half. -/
noncomputable def demo : PAmps ℝ ℝ where
  n := 2
  s1 := 2
  s2 := 2
  name := fun i => if i = 0 then "a" else "b"
  ext := fun i p => if i = 0 then [p] else []
  amp := fun i b x c => if i = 0 then ((b.headD 0 * x : ℝ) : ℂ) else c
  coup := fun _ _ => 1
  weight := fun _ => 1
  pol := fun _ k => if k = 2 then 1 / 2 else 0
  frac := none

example : demo.WF ∧ (demo.frac.isSome → demo.s1 = 1 ∧ demo.s2 = 2) ∧
    lastSim none [Op.setMC [fun (_ : Fin 1) => (⟨1, 1, 1⟩ : SimEvent ℝ)] (fun _ _ _ => 0), Op.prepare, .setPar (2 : ℝ)] =
      some [fun _ => ⟨1, 1, 1⟩] :=
  ⟨⟨by decide, fun i p q => by simp only [demo]; split <;> rfl⟩, by simp [demo], rfl⟩

/-- What the norm is in general, with a polarisation fraction too: only the first entry of the
density matrix enters. -/
theorem polarised_norm_general (A : PAmps P X) (hA : A.WF)
    (sched : List Req → List Req) (hs : ∀ q, (sched q).Perm q) (p : P) (ops : List (Op P X W))
    (evs : List (Fin W → SimEvent X)) (he : lastSim none ops = some evs) :
    (run A sched p (ops ++ [.prepare])).norm = average evs fun e => (normDensity A (lastPar p ops) e).re := by
  obtain ⟨s0, h1, h2, h3, hp⟩ := run_prepare A hA sched hs p ops
  rw [hp.norm (by rw [hp.ievents, h3, he]; rfl)]
  rw [normSum_eq A s0.par (evs := evs) (by rw [hp.ievents, h3, he]) hp.ncache, h1]

/-- One element, all of whose amplitudes are one, with a polarisation fraction of one half. -/
noncomputable def fracAmps : PAmps Unit Unit where
  n := 1
  s1 := 2
  s2 := 2
  name := fun _ => "a"
  ext := fun _ _ => []
  amp := fun _ _ _ _ => 1
  coup := fun _ _ => 1
  weight := fun _ => 1
  pol := fun _ _ => 0
  frac := some fun _ => 1 / 2

theorem fracAmps_density : fracAmps.density () () = 2 := by
  rw [density_eq]
  simp only [fracAmps, PAmps.tot, PAmps.el, Finset.sum_range_succ, Finset.sum_range_zero, rhoExpr]
  norm_num

/-- With a polarisation fraction and an initial state with spin the norm is not the average of
the density: the density is 2 for every event, the norm is 1, and the returned density
averages to 2 instead of the weight 1. -/
theorem polarised_fraction_counterexample (sched : List Req → List Req) (hs : ∀ q, (sched q).Perm q) :
    let s := run (W := 1) fracAmps sched () [.setMC [fun _ => ⟨(), 1, 1⟩] (fun _ _ _ => 0), .prepare]
    s.norm = 1 ∧ average [fun (_ : Fin 1) => (⟨(), 1, 1⟩ : SimEvent Unit)] (fracAmps.density ()) = 2 ∧
      average [fun (_ : Fin 1) => (⟨(), 1, 1⟩ : SimEvent Unit)] (s.evaluator fracAmps) = 2 := by
  intro s
  have hWF : fracAmps.WF := ⟨by decide, fun _ _ _ => rfl⟩
  have hn : s.norm = 1 := by
    refine (polarised_norm_general fracAmps hWF sched hs () [.setMC [fun _ => ⟨(), 1, 1⟩] (fun _ _ _ => 0)] _ rfl).trans ?_
    have : ∀ e, (normDensity fracAmps () e).re = 1 := by
      intro e
      simp only [normDensity, fac, fracAmps, PAmps.tot, PAmps.el, Finset.sum_range_succ, Finset.sum_range_zero,
        densityMatrix]
      norm_num
    simp [average, Coherent.sumOver, SimEvent.w, lastPar, this]
  obtain ⟨s0, h1, h2, h3, hp⟩ := run_prepare fracAmps hWF sched hs ()
    [Op.setMC [fun (_ : Fin 1) => (⟨(), 1, 1⟩ : SimEvent Unit)] (fun _ _ _ => 0)]
  have hev : ∀ x, s.evaluator fracAmps x = 2 := by
    intro x
    have := evaluator_eq fracAmps hp x
    refine this.trans ?_
    have hn' : (run (W := 1) fracAmps sched () ([Op.setMC [fun _ => ⟨(), 1, 1⟩] (fun _ _ _ => 0)] ++ [Op.prepare])).norm = 1 := hn
    rw [hn', show fracAmps.density s0.par x = 2 from fracAmps_density]
    simp [fracAmps]
  refine ⟨hn, ?_, ?_⟩
  · simp [average, Coherent.sumOver, SimEvent.w, fracAmps_density]
  · simp [average, Coherent.sumOver, SimEvent.w, hev]

/-- For a spin one half initial state with polarisation at most one and a polarisation fraction
between zero and one, the density is not negative. -/
theorem polarised_density_nonneg (A : PAmps P X) (hs1 : A.s1 = 2) (p : P)
    (hpol : A.pol p 0 ^ 2 + A.pol p 1 ^ 2 + A.pol p 2 ^ 2 ≤ 1)
    (hfr : ∀ fr, A.frac = some fr → 0 ≤ fr p ∧ fr p ≤ 1) (x : X) : 0 ≤ A.density p x := by
  set px := A.pol p 0
  set py := A.pol p 1
  set pz := A.pol p 2
  have key : ∀ t0 t1 : ℂ, 0 ≤ (rhoExpr 2 (A.pol p) 0 0 * (t0 * (starRingEnd ℂ) t0) +
      rhoExpr 2 (A.pol p) 0 1 * (t1 * (starRingEnd ℂ) t0) +
      (rhoExpr 2 (A.pol p) 1 0 * (t0 * (starRingEnd ℂ) t1) + rhoExpr 2 (A.pol p) 1 1 * (t1 * (starRingEnd ℂ) t1))).re := by
    rintro ⟨a, b⟩ ⟨c, d⟩
    have e : (rhoExpr 2 (A.pol p) 0 0 * ((⟨a, b⟩ : ℂ) * (starRingEnd ℂ) ⟨a, b⟩) +
      rhoExpr 2 (A.pol p) 0 1 * ((⟨c, d⟩ : ℂ) * (starRingEnd ℂ) ⟨a, b⟩) +
      (rhoExpr 2 (A.pol p) 1 0 * ((⟨a, b⟩ : ℂ) * (starRingEnd ℂ) ⟨c, d⟩) +
        rhoExpr 2 (A.pol p) 1 1 * ((⟨c, d⟩ : ℂ) * (starRingEnd ℂ) ⟨c, d⟩))).re =
        (1 + pz) * (a ^ 2 + b ^ 2) + (1 - pz) * (c ^ 2 + d ^ 2) +
          2 * (px * (a * c + b * d) + py * (a * d - b * c)) := by
      simp [rhoExpr, Complex.mul_re, Complex.mul_im]
      ring
    rw [e]
    have hz : pz ^ 2 ≤ 1 := by nlinarith [sq_nonneg px, sq_nonneg py]
    have hz1 : -1 ≤ pz := by nlinarith
    have hz2 : pz ≤ 1 := by nlinarith
    rcases eq_or_lt_of_le hz1 with h | h
    · have hp0 : px ^ 2 + py ^ 2 ≤ 0 := by rw [← h] at hpol; nlinarith
      have h1 : px = 0 := by nlinarith [sq_nonneg px, sq_nonneg py]
      have h2 : py = 0 := by nlinarith [sq_nonneg px, sq_nonneg py]
      rw [h1, h2, ← h]
      nlinarith [sq_nonneg c, sq_nonneg d]
    · have hpos : 0 < 1 + pz := by linarith
      have id : (1 + pz) * ((1 + pz) * (a ^ 2 + b ^ 2) + (1 - pz) * (c ^ 2 + d ^ 2) +
          2 * (px * (a * c + b * d) + py * (a * d - b * c))) =
          ((1 + pz) * a + (px * c + py * d)) ^ 2 + ((1 + pz) * b + (px * d - py * c)) ^ 2 +
            (1 - (px ^ 2 + py ^ 2 + pz ^ 2)) * (c ^ 2 + d ^ 2) := by ring
      have : 0 ≤ (1 + pz) * ((1 + pz) * (a ^ 2 + b ^ 2) + (1 - pz) * (c ^ 2 + d ^ 2) +
          2 * (px * (a * c + b * d) + py * (a * d - b * c))) := by
        rw [id]
        have h3 : 0 ≤ 1 - (px ^ 2 + py ^ 2 + pz ^ 2) := by linarith
        positivity
      exact nonneg_of_mul_nonneg_right this hpos
  rw [density_eq, hs1]
  simp only [Finset.sum_range_succ, Finset.sum_range_zero, zero_add, Finset.mul_sum]
  rw [← Finset.sum_add_distrib, ← Finset.sum_add_distrib, ← Finset.sum_add_distrib, Complex.re_sum]
  apply Finset.sum_nonneg
  intro f _
  have fin : ∀ φ : ℝ, 0 ≤ φ → 0 ≤ (rhoExpr 2 (A.pol p) 0 0 * (A.tot p 0 f x * (φ : ℂ) * (starRingEnd ℂ) (A.tot p 0 f x)) +
      rhoExpr 2 (A.pol p) 0 1 * (A.tot p 1 f x * (φ : ℂ) * (starRingEnd ℂ) (A.tot p 0 f x)) +
      (rhoExpr 2 (A.pol p) 1 0 * (A.tot p 0 f x * (φ : ℂ) * (starRingEnd ℂ) (A.tot p 1 f x)) +
        rhoExpr 2 (A.pol p) 1 1 * (A.tot p 1 f x * (φ : ℂ) * (starRingEnd ℂ) (A.tot p 1 f x)))).re := by
    intro φ hφ
    have hk := mul_nonneg hφ (key (A.tot p 0 f x) (A.tot p 1 f x))
    rw [← Complex.re_ofReal_mul] at hk
    refine le_of_le_of_eq hk ?_
    congr 1
    ring
  cases hf : A.frac with
  | none => simpa using fin 1 zero_le_one
  | some fr =>
    obtain ⟨h0, h1⟩ := hfr fr hf
    by_cases e0 : f = 0
    · simpa [e0] using fin (fr p) h0
    · by_cases e1 : f = 1
      · have h1' : (0 : ℝ) ≤ 1 - fr p := by linarith
        simpa [e1] using fin (1 - fr p) h1'
      · simpa [e0, e1] using fin 0 (le_refl _)

/-- Full polarisation along a general direction meets the hypothesis. -/
example : ((2 / 7 : ℝ) ^ 2 + (3 / 7) ^ 2 + (6 / 7) ^ 2 ≤ 1) := by norm_num

/-! ### C13 -/

/-- C13 for the polarised sum: without a polarisation fraction the component functions of an event add up to
the density. -/
theorem polarised_components_partial (A : PAmps P X) (hA : A.WF) (hf : A.frac = none)
    (sched : List Req → List Req) (hs : ∀ q, (sched q).Perm q) (p : P) (ops : List (Op P X W))
    (evs : List (Fin W → SimEvent X)) (he : lastSim none ops = some evs) (b : Nat) (hb : b < evs.length) (l : Fin W) :
    let s := run A sched p (ops ++ [.prepare])
    (components A (fun i => (s.me i).coefficient) s.rho
      (fun i c => s.integ.cache (A.s1 * A.s2 * i + c) b l)).sum = A.density (lastPar p ops) (evs[b] l).x := by
  intro s
  obtain ⟨s0, h1, h2, h3, hp⟩ := run_prepare A hA sched hs p ops
  set q := lastPar p ops with hq
  have hcoef : (fun i => (s.me i).coefficient) = fun i => A.coup i q := funext fun i => by
    rw [← h1]; exact hp.coef i
  have hrho : s.rho = densityMatrix A.s1 (A.pol q) := by rw [← h1]; exact hp.rho
  have hv : ∀ i < A.n, ∀ m f, m < A.s1 → f < A.s2 →
      s.integ.cache (A.s1 * A.s2 * i + (m * A.s2 + f)) b l = A.el q i m f (evs[b] l).x := by
    intro i hi m f hm hff
    have := hp.icache i hi evs (by rw [hp.ievents, h3, he]) b _ l (List.getElem?_eq_getElem hb) _ (comp_lt hm hff)
    rw [h1] at this
    exact this
  rw [hcoef, hrho]
  set e := (evs[b] l).x with hedef
  have hcomp : ∀ i j, i < A.n → j < A.n → component A (fun i => A.coup i q) (densityMatrix A.s1 (A.pol q))
      (fun i c => s.integ.cache (A.s1 * A.s2 * i + c) b l) i j =
      (if i = j then 1 else 2) * (A.coup i q * (starRingEnd ℂ) (A.coup j q) * D A q i j e).re := by
    intro i j hi hj
    unfold component
    congr 2
    rw [foldl_range_sum, zero_add]
    simp only [decode, ← Nat.div_eq_sub_mod_div]
    have hsum : ∀ x ∈ Finset.range (A.s2 * A.s1 * A.s1),
        densityMatrix A.s1 (A.pol q) (x / A.s2) * A.coup i q *
          s.integ.cache (A.s1 * A.s2 * i + (x / A.s2 / A.s1 * A.s2 + x % A.s2)) b l *
          (starRingEnd ℂ) (A.coup j q * s.integ.cache (A.s1 * A.s2 * j + (x / A.s2 % A.s1 * A.s2 + x % A.s2)) b l) =
        A.coup i q * (starRingEnd ℂ) (A.coup j q) * (fac A q (x / A.s2 / A.s1) (x / A.s2 % A.s1) (x % A.s2) *
          (A.el q i (x / A.s2 / A.s1) (x % A.s2) e * (starRingEnd ℂ) (A.el q j (x / A.s2 % A.s1) (x % A.s2) e))) := by
      intro x hx
      obtain ⟨_, _, d1, d2, d3⟩ := decode_lt (Finset.mem_range.mp hx)
      rw [hv i hi _ _ d1 d3, hv j hj _ _ d2 d3, ← normFactor_eq]
      unfold normFactor
      simp only [hf, decode, map_mul]
      ring
    rw [Finset.sum_congr rfl hsum, ← Finset.mul_sum]
    congr 1
    exact sum_decode (fun m1 m2 f => fac A q m1 m2 f * (A.el q i m1 f e * (starRingEnd ℂ) (A.el q j m2 f e))) A.s1 A.s2
  unfold components
  rw [pairs_sum A.n (fun i j => component A (fun i => A.coup i q) (densityMatrix A.s1 (A.pol q))
      (fun i c => s.integ.cache (A.s1 * A.s2 * i + c) b l) i j)]
  have hsym : ∀ i j, (A.coup i q * (starRingEnd ℂ) (A.coup j q) * D A q i j e).re =
      (A.coup j q * (starRingEnd ℂ) (A.coup i q) * D A q j i e).re := by
    intro i j
    rw [← Complex.conj_re, map_mul, map_mul, Complex.conj_conj, D_conj, mul_comm ((starRingEnd ℂ) _)]
  have hrw : ∀ i ∈ Finset.range A.n, ∀ j ∈ Finset.range A.n,
      (if i ≤ j then component A (fun i => A.coup i q) (densityMatrix A.s1 (A.pol q))
        (fun i c => s.integ.cache (A.s1 * A.s2 * i + c) b l) i j else 0) =
      (if i ≤ j then (if i = j then (1 : ℝ) else 2) *
        (A.coup i q * (starRingEnd ℂ) (A.coup j q) * D A q i j e).re else 0) := by
    intro i hi j hj
    rw [hcomp i j (Finset.mem_range.mp hi) (Finset.mem_range.mp hj)]
  rw [Finset.sum_congr rfl fun i hi => Finset.sum_congr rfl fun j hj => hrw i hi j hj]
  rw [triangle (fun i j => (A.coup i q * (starRingEnd ℂ) (A.coup j q) * D A q i j e).re) hsym A.n]
  rw [← normDensity_density A q e (by rw [hf]; simp), normDensity_eq, Complex.re_sum]
  apply Finset.sum_congr rfl
  intro i _
  rw [Complex.re_sum]

/-- With a polarisation fraction the component functions ignore it: they add up to 4 where the
density is 2. -/
theorem polarised_components_counterexample :
    fracAmps.density () () = 2 ∧
    (components fracAmps (fun _ => 1) (densityMatrix 2 fun _ => 0) (fun _ _ => 1)).sum = 4 := by
  refine ⟨fracAmps_density, ?_⟩
  simp [components, component, fracAmps, Coherent.pairs, List.range_succ, densityMatrix]
  norm_num

/-! ### C51 -/

/-- C51: the density matrix used for the norm is the transpose of the one in the probability. -/
theorem density_matrices_agree (A : PAmps P X) (p : P) (a b : Fin A.s1) :
    A.rho p a b = densityMatrix A.s1 (A.pol p) (b * A.s1 + a) :=
  rhoExpr_eq A.s1 (A.pol p) a.2 b.2

/-- C51: the density matrix is Hermitian. -/
theorem density_hermitian (A : PAmps P X) (p : P) : (A.rho p).conjTranspose = A.rho p := by
  ext a b
  rw [Matrix.conjTranspose_apply, density_matrices_agree, density_matrices_agree]
  exact density_conj _ _ a.2 b.2

/-- C51: its trace is the number of polarisation states. -/
theorem density_trace (A : PAmps P X) (p : P) : (A.rho p).trace = A.s1 := by
  unfold Matrix.trace
  show ∑ a : Fin A.s1, rhoExpr A.s1 (A.pol p) a a = _
  rw [← Finset.sum_range fun a => rhoExpr A.s1 (A.pol p) a a]
  by_cases h2 : A.s1 = 2
  · rw [h2]
    simp [Finset.sum_range_succ, rhoExpr]
    ring
  · by_cases h3 : A.s1 = 3
    · rw [h3]
      simp only [Finset.sum_range_succ, Finset.sum_range_zero, rhoExpr]
      norm_num
      have h6 : ((√6 : ℝ) : ℂ) = 2 * (((√3 : ℝ) : ℂ) * ((√2 : ℝ) : ℂ)⁻¹) := by
        rw [show (6 : ℝ) = 2 ^ 2 * (3 / 2) by norm_num, Real.sqrt_mul (by norm_num), Real.sqrt_sq (by norm_num),
          Real.sqrt_div (by norm_num)]
        push_cast
        rw [div_eq_mul_inv]
      rw [h6]
      ring
    · have : ∀ a ∈ Finset.range A.s1, rhoExpr A.s1 (A.pol p) a a = 1 := by
        intro a _
        unfold rhoExpr
        simp only [if_true]
        rw [if_neg h2, if_neg h3]
      rw [Finset.sum_congr rfl this]
      simp

/-- C51: for spin one half it is `1 + P·σ`. -/
theorem density_spin_half (p : Nat → ℝ) (a b : Fin 2) :
    rhoExpr 2 p a b = (1 + (p 0 : ℂ) • pauliX + (p 1 : ℂ) • pauliY + (p 2 : ℂ) • pauliZ) a b := by
  fin_cases a <;> fin_cases b <;> simp [rhoExpr, pauliX, pauliY, pauliZ, mul_comm]

theorem spin1_entries (px py pz Tyy Tzz Txy Txz Tyz : ℝ) :
    spin1Density px py pz Tyy Tzz Txy Txz Tyz =
      !![(1 : ℂ) + 3 / 2 * (pz : ℂ) + ((√(3 / 2) : ℝ) : ℂ) * (Tzz : ℂ),
          ((√(9 / 8) : ℝ) : ℂ) * ((px : ℂ) - Complex.I * (py : ℂ)) + ((√3 : ℝ) : ℂ) * ((Txz : ℂ) - Complex.I * (Tyz : ℂ)),
          -((√(3 / 2) : ℝ) : ℂ) * ((Tzz : ℂ) + 2 * (Tyy : ℂ) + 2 * Complex.I * (Txy : ℂ));
        ((√(9 / 8) : ℝ) : ℂ) * ((px : ℂ) + Complex.I * (py : ℂ)) + ((√3 : ℝ) : ℂ) * ((Txz : ℂ) + Complex.I * (Tyz : ℂ)),
          1 - 2 * ((√(3 / 2) : ℝ) : ℂ) * (Tzz : ℂ),
          ((√(9 / 8) : ℝ) : ℂ) * ((px : ℂ) - Complex.I * (py : ℂ)) - ((√3 : ℝ) : ℂ) * ((Txz : ℂ) - Complex.I * (Tyz : ℂ));
        -((√(3 / 2) : ℝ) : ℂ) * ((Tzz : ℂ) + 2 * (Tyy : ℂ) - 2 * Complex.I * (Txy : ℂ)),
          ((√(9 / 8) : ℝ) : ℂ) * ((px : ℂ) + Complex.I * (py : ℂ)) - ((√3 : ℝ) : ℂ) * ((Txz : ℂ) + Complex.I * (Tyz : ℂ)),
          1 - 3 / 2 * (pz : ℂ) + ((√(3 / 2) : ℝ) : ℂ) * (Tzz : ℂ)] := by
  have hs2 : ((√2 : ℝ) : ℂ) * ((√2 : ℝ) : ℂ) = 2 := by
    rw [← Complex.ofReal_mul, Real.mul_self_sqrt (by norm_num)]; norm_num
  have hne : ((√2 : ℝ) : ℂ) ≠ 0 := by
    intro h; rw [h] at hs2; norm_num at hs2
  have hinv : ((√2 : ℝ) : ℂ)⁻¹ * ((√2 : ℝ) : ℂ)⁻¹ = 1 / 2 := by
    rw [← mul_inv, hs2]; norm_num
  have h98 : ((√(9 / 8) : ℝ) : ℂ) = 3 / 2 * ((√2 : ℝ) : ℂ)⁻¹ := by
    have : √(9 / 8 : ℝ) = 3 / 2 * (√2)⁻¹ := by
      rw [show (9 / 8 : ℝ) = (3 / 2) ^ 2 / 2 by norm_num, Real.sqrt_div (by positivity), Real.sqrt_sq (by norm_num)]
      rfl
    rw [this]; push_cast; rfl
  have h3 : ((√3 : ℝ) : ℂ) = 2 * ((√(3 / 2) : ℝ) : ℂ) * ((√2 : ℝ) : ℂ)⁻¹ := by
    have : √(3 : ℝ) = √(3 / 2) * √2 := by
      rw [← Real.sqrt_mul (by norm_num)]; norm_num
    rw [this]
    push_cast
    field_simp
    rw [← hs2]; ring
  rw [h98, h3]
  unfold spin1Density spinX spinY
  generalize ((√2 : ℝ) : ℂ)⁻¹ = u at *
  generalize ((√(3 / 2) : ℝ) : ℂ) = v at *
  have hu2 : u ^ 2 = 1 / 2 := by rw [pow_two]; exact hinv
  ext a b
  fin_cases a <;> fin_cases b <;>
    simp [spinZ, Matrix.mul_apply, Fin.sum_univ_three, Matrix.one_apply]
  all_goals ring_nf
  all_goals try simp only [hu2, Complex.I_sq]
  all_goals try ring_nf
  all_goals simp

/-- C51: for spin one it is the expansion in spin operators, but with the transverse components
of the polarisation vector divided by `√3`. -/
theorem density_spin_one_partial (p : Nat → ℝ) (a b : Fin 3) :
    rhoExpr 3 p a b = spin1Density (p 0 / √3) (p 1 / √3) (p 2) (p 3) (p 4) (p 5) (p 6) (p 7) a b := by
  rw [spin1_entries]
  have h38 : ((√(3 / 8) : ℝ) : ℂ) = ((√(9 / 8) : ℝ) : ℂ) / ((√3 : ℝ) : ℂ) := by
    rw [← Complex.ofReal_div, ← Real.sqrt_div (by norm_num)]
    norm_num
  have h6 : ((√6 : ℝ) : ℂ) = 2 * ((√(3 / 2) : ℝ) : ℂ) := by
    rw [show (6 : ℝ) = 2 ^ 2 * (3 / 2) by norm_num, Real.sqrt_mul (by norm_num), Real.sqrt_sq (by norm_num)]
    push_cast; rfl
  have e1 : (0.375 : ℝ) = 3 / 8 := by norm_num
  have e2 : (1.5 : ℝ) = 3 / 2 := by norm_num
  have e3 : (1.5 : ℂ) = 3 / 2 := by norm_num
  fin_cases a <;> fin_cases b <;> simp only [rhoExpr, e1, e2, e3, h38, h6] <;>
    simp [-Real.sqrt_div', -Real.sqrt_div] <;> ring_nf

/-- C51 fails for the transverse polarisation of a spin one state: rotating a polarisation of 2/3 from the
z axis to the x axis changes the determinant of the density matrix. -/
theorem density_spin_one_counterexample :
    (Matrix.of fun a b : Fin 3 => rhoExpr 3 (fun k => if k = 2 then 2 / 3 else 0) a b).det = 0 ∧
    (Matrix.of fun a b : Fin 3 => rhoExpr 3 (fun k => if k = 0 then 2 / 3 else 0) a b).det = 2 / 3 := by
  have h38 : ((√0.375 : ℝ) : ℂ) * ((√0.375 : ℝ) : ℂ) = 3 / 8 := by
    rw [← Complex.ofReal_mul, Real.mul_self_sqrt (by norm_num)]; norm_num
  constructor
  · simp [Matrix.det_fin_three, rhoExpr]
    norm_num
  · rw [Matrix.det_fin_three]
    simp only [rhoExpr, Matrix.of_apply]
    generalize ((√0.375 : ℝ) : ℂ) = u at *
    simp
    linear_combination (-8 / 9) * h38

end AmpGen.Polarised
