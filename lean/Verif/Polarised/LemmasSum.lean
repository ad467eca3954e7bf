import Verif.Polarised.LemmasState
import Verif.Coherent.LemmasSum
import Mathlib.Algebra.BigOperators.Fin
import Mathlib.Tactic.IntervalCases
/-
The norm of a polarised sum as an average.
-/
namespace AmpGen.Polarised

open AmpGen.Coherent (SimEvent averageC average foldl_range_sum averageC_add averageC_mul averageC_zero averageC_conj
  averageC_ofReal foldl_double foldl_list_sum list_range_sum)

variable {P X : Type} {W : Nat}

theorem averageC_sum {α : Type} [DecidableEq α] (evs : List (Fin W → SimEvent X)) (f : α → X → ℂ) (S : Finset α) :
    averageC evs (fun x => ∑ a ∈ S, f a x) = ∑ a ∈ S, averageC evs (f a) := by
  induction S using Finset.induction_on with
  | empty => simp only [Finset.sum_empty]; exact averageC_zero evs
  | insert a S ha ih => simp only [Finset.sum_insert ha]; rw [averageC_add, ih]

theorem averageC_re (evs : List (Fin W → SimEvent X)) (f : X → ℂ) :
    (averageC evs f).re = average evs fun x => (f x).re := by
  have h1 : (fun x => (((f x).re : ℝ) : ℂ)) = fun x => (1 / 2 : ℂ) * (f x + (starRingEnd ℂ) (f x)) := by
    funext x
    rw [Complex.re_eq_add_conj]
    ring
  have h2 := averageC_ofReal evs fun x => (f x).re
  rw [h1, averageC_mul, averageC_add, ← averageC_conj] at h2
  have h3 := congrArg Complex.re h2
  rw [Complex.ofReal_re] at h3
  rw [← h3, Complex.add_conj]
  simp

theorem sum_range_mul {M : Type} [AddCommMonoid M] (h : Nat → M) (a b : Nat) :
    ∑ k ∈ Finset.range (a * b), h k = ∑ i ∈ Finset.range a, ∑ j ∈ Finset.range b, h (i * b + j) := by
  induction a with
  | zero => simp
  | succ a ih => rw [Nat.add_mul, Nat.one_mul, Finset.sum_range_add, ih, Finset.sum_range_succ]

theorem sum_decode {M : Type} [AddCommMonoid M] (h : Nat → Nat → Nat → M) (s1 s2 : Nat) :
    ∑ x ∈ Finset.range (s2 * s1 * s1), h (x / s2 / s1) (x / s2 % s1) (x % s2) =
      ∑ m1 ∈ Finset.range s1, ∑ m2 ∈ Finset.range s1, ∑ f ∈ Finset.range s2, h m1 m2 f := by
  have : s2 * s1 * s1 = s1 * (s1 * s2) := by
    rw [Nat.mul_comm s2 s1, Nat.mul_comm]
  rw [this, sum_range_mul]
  apply Finset.sum_congr rfl
  intro m1 hm1
  rw [sum_range_mul]
  apply Finset.sum_congr rfl
  intro m2 hm2
  apply Finset.sum_congr rfl
  intro f hf
  rw [Finset.mem_range] at hm1 hm2 hf
  have hs2 : 0 < s2 := by omega
  have e : m1 * (s1 * s2) + (m2 * s2 + f) = s2 * (m1 * s1 + m2) + f := by
    rw [Nat.mul_add, ← Nat.mul_assoc, Nat.mul_comm (m1 * s1) s2, Nat.mul_comm m2 s2]; omega
  have e1 : (m1 * (s1 * s2) + (m2 * s2 + f)) / s2 = s1 * m1 + m2 := by
    rw [e, Nat.mul_add_div hs2, Nat.div_eq_of_lt hf, Nat.mul_comm m1]; omega
  have e2 : (m1 * (s1 * s2) + (m2 * s2 + f)) % s2 = f := by
    rw [e, Nat.mul_add_mod, Nat.mod_eq_of_lt hf]
  rw [e1, e2, Nat.mul_add_div (by omega), Nat.div_eq_of_lt hm2, Nat.mul_add_mod, Nat.mod_eq_of_lt hm2, Nat.add_zero]

/-! ### Density matrices -/

theorem density_conj (s1 : Nat) (pv : Nat → ℝ) {m1 m2 : Nat} (h1 : m1 < s1) (h2 : m2 < s1) :
    (starRingEnd ℂ) (densityMatrix s1 pv (m1 * s1 + m2)) = densityMatrix s1 pv (m2 * s1 + m1) := by
  by_cases hc : s1 ≠ 2 ∧ s1 ≠ 3
  · unfold densityMatrix
    rw [if_pos hc, if_pos hc]
    have q : ∀ a b, b < s1 → (a * s1 + b) / s1 = a ∧ (a * s1 + b) % s1 = b := by
      intro a b hb
      rw [Nat.mul_comm]
      exact ⟨by rw [Nat.mul_add_div (by omega), Nat.div_eq_of_lt hb]; omega,
        by rw [Nat.mul_add_mod, Nat.mod_eq_of_lt hb]⟩
    rw [(q m1 m2 h2).1, (q m1 m2 h2).2, (q m2 m1 h1).1, (q m2 m1 h1).2]
    by_cases h : m1 = m2
    · subst h; simp
    · rw [if_neg h, if_neg (Ne.symm h)]; simp
  · have : s1 = 2 ∨ s1 = 3 := by omega
    rcases this with rfl | rfl
    · interval_cases m1 <;> interval_cases m2 <;> simp [densityMatrix, Complex.ext_iff]
    · have h15 : (1.5 : ℂ) = ((1.5 : ℝ) : ℂ) := by push_cast; rfl
      interval_cases m1 <;> interval_cases m2 <;>
        simp only [densityMatrix, map_add, map_sub, map_mul, map_neg, Complex.conj_ofReal, Complex.conj_I, map_one, h15,
          map_ofNat] <;> norm_num [map_ofNat] <;> ring

theorem rhoExpr_eq (s1 : Nat) (pv : Nat → ℝ) {a b : Nat} (ha : a < s1) (hb : b < s1) :
    rhoExpr s1 pv a b = densityMatrix s1 pv (b * s1 + a) := by
  by_cases hc : s1 ≠ 2 ∧ s1 ≠ 3
  · unfold densityMatrix rhoExpr
    rw [if_pos hc]
    simp only
    rw [if_neg hc.1, if_neg hc.2]
    have e1 : (b * s1 + a) / s1 = b := by
      rw [Nat.mul_comm, Nat.mul_add_div (by omega), Nat.div_eq_of_lt ha]; omega
    have e2 : (b * s1 + a) % s1 = a := by
      rw [Nat.mul_comm, Nat.mul_add_mod, Nat.mod_eq_of_lt ha]
    rw [e1, e2]
    by_cases h : a = b
    · subst h; simp
    · rw [if_neg h, if_neg (Ne.symm h)]
  · have : s1 = 2 ∨ s1 = 3 := by omega
    rcases this with rfl | rfl
    · interval_cases a <;> interval_cases b <;> simp [densityMatrix, rhoExpr] <;> ring
    · interval_cases a <;> interval_cases b <;> simp [densityMatrix, rhoExpr]

/-! ### The factors of the integrals -/

noncomputable def fac (A : PAmps P X) (p : P) (m1 m2 f : Nat) : ℂ :=
  let rho := densityMatrix A.s1 (A.pol p)
  match A.frac with
  | none => rho (m1 * A.s1 + m2)
  | some fr =>
    if m1 * A.s1 + m2 = 0 then
      (if f = 0 then rho 0 * (fr p : ℂ) else rho 0 * (1 - (fr p : ℂ)))
    else 0

theorem fac_conj (A : PAmps P X) (p : P) {m1 m2 : Nat} (h1 : m1 < A.s1) (h2 : m2 < A.s1) (f : Nat) :
    (starRingEnd ℂ) (fac A p m1 m2 f) = fac A p m2 m1 f := by
  unfold fac
  cases A.frac with
  | none => exact density_conj _ _ h1 h2
  | some fr =>
    simp only
    have h0 := density_conj A.s1 (A.pol p) (m1 := 0) (m2 := 0) (by omega) (by omega)
    rw [Nat.zero_mul, Nat.add_zero] at h0
    have hz : ∀ a b, a * A.s1 + b = 0 ↔ a = 0 ∧ b = 0 := by
      intro a b
      constructor
      · intro h
        refine ⟨?_, by omega⟩
        rcases Nat.eq_zero_or_pos a with ha | ha
        · exact ha
        · have := Nat.mul_pos ha (show 0 < A.s1 by omega); omega
      · rintro ⟨rfl, rfl⟩; simp
    by_cases hm : m1 = 0 ∧ m2 = 0
    · rw [if_pos ((hz _ _).mpr hm), if_pos ((hz _ _).mpr hm.symm)]
      split <;> simp [h0]
    · rw [if_neg (fun h => hm ((hz _ _).mp h)), if_neg (fun h => hm ((hz _ _).mp h).symm)]
      simp

theorem normFactor_eq (A : PAmps P X) (p : P) (x : Nat) :
    normFactor A p (densityMatrix A.s1 (A.pol p)) x = fac A p (x / A.s2 / A.s1) (x / A.s2 % A.s1) (x % A.s2) := by
  have hx : x / A.s2 / A.s1 * A.s1 + x / A.s2 % A.s1 = x / A.s2 := by
    rw [Nat.mul_comm]; exact Nat.div_add_mod _ _
  unfold normFactor fac
  simp only [decode, hx]
  cases A.frac with
  | none => rfl
  | some fr =>
    simp only
    by_cases h : x / A.s2 = 0
    · rw [if_pos h, if_pos h, h]
    · rw [if_neg h, if_neg h]

/-- Amplitude of element `i` in polarisation states `m`, `f`. -/
noncomputable def PAmps.el (A : PAmps P X) (p : P) (i m f : Nat) (e : X) : ℂ := A.amp i (A.ext i p) e (m * A.s2 + f)

noncomputable def D (A : PAmps P X) (p : P) (i j : Nat) (e : X) : ℂ :=
  ∑ m1 ∈ Finset.range A.s1, ∑ m2 ∈ Finset.range A.s1, ∑ f ∈ Finset.range A.s2,
    fac A p m1 m2 f * (A.el p i m1 f e * (starRingEnd ℂ) (A.el p j m2 f e))

theorem D_conj (A : PAmps P X) (p : P) (i j : Nat) (e : X) : (starRingEnd ℂ) (D A p i j e) = D A p j i e := by
  unfold D
  simp only [map_sum, map_mul, Complex.conj_conj]
  rw [Finset.sum_comm]
  apply Finset.sum_congr rfl
  intro m1 h1
  apply Finset.sum_congr rfl
  intro m2 h2
  apply Finset.sum_congr rfl
  intro f _
  rw [fac_conj A p (Finset.mem_range.mp h2) (Finset.mem_range.mp h1)]
  ring

theorem normTotal_eq (A : PAmps P X) (p : P) {s : St P X W} {evs : List (Fin W → SimEvent X)}
    (he : s.integ.events = some evs) {i j : Nat} (h : NCached A s i j (A.ext i p) (A.ext j p)) :
    normTotal A p (densityMatrix A.s1 (A.pol p)) s.norms i j = averageC evs (D A p i j) := by
  unfold normTotal
  rw [foldl_range_sum, zero_add]
  have step : ∀ x ∈ Finset.range (A.s2 * A.s1 * A.s1),
      normFactor A p (densityMatrix A.s1 (A.pol p)) x * s.norms (x * (A.n * A.n) + (i * A.n + j)) =
        averageC evs fun e => fac A p (x / A.s2 / A.s1) (x / A.s2 % A.s1) (x % A.s2) *
          (A.el p i (x / A.s2 / A.s1) (x % A.s2) e * (starRingEnd ℂ) (A.el p j (x / A.s2 % A.s1) (x % A.s2) e)) := by
    intro x hx
    rw [averageC_mul, normFactor_eq]
    by_cases hw : A.wanted x
    · rw [h evs he x (Finset.mem_range.mp hx) hw]
      rfl
    · have hz : fac A p (x / A.s2 / A.s1) (x / A.s2 % A.s1) (x % A.s2) = 0 := by
        rw [← normFactor_eq]
        unfold normFactor
        unfold PAmps.wanted at hw
        cases hf : A.frac with
        | none => exact absurd (Or.inl (by rw [hf]; rfl)) hw
        | some fr =>
          simp only [decode]
          exact if_neg fun h => hw (Or.inr h)
      rw [hz, zero_mul, zero_mul]
  rw [Finset.sum_congr rfl step, ← averageC_sum]
  congr 1
  funext e
  exact sum_decode (fun m1 m2 f => fac A p m1 m2 f * (A.el p i m1 f e * (starRingEnd ℂ) (A.el p j m2 f e))) A.s1 A.s2

/-- Total amplitude in polarisation states `m`, `f`. -/
noncomputable def PAmps.tot (A : PAmps P X) (p : P) (m f : Nat) (e : X) : ℂ :=
  ∑ i ∈ Finset.range A.n, A.coup i p * A.el p i m f e

noncomputable def normDensity (A : PAmps P X) (p : P) (e : X) : ℂ :=
  ∑ m1 ∈ Finset.range A.s1, ∑ m2 ∈ Finset.range A.s1, ∑ f ∈ Finset.range A.s2,
    fac A p m1 m2 f * (A.tot p m1 f e * (starRingEnd ℂ) (A.tot p m2 f e))

theorem sum_move (S T U : Finset Nat) (F : Nat → Nat → Nat → ℂ) :
    ∑ i ∈ S, ∑ j ∈ T, ∑ a ∈ U, F i j a = ∑ a ∈ U, ∑ i ∈ S, ∑ j ∈ T, F i j a := by
  have : ∀ i ∈ S, ∑ j ∈ T, ∑ a ∈ U, F i j a = ∑ a ∈ U, ∑ j ∈ T, F i j a := fun i _ => Finset.sum_comm
  rw [Finset.sum_congr rfl this, Finset.sum_comm]

theorem normDensity_eq (A : PAmps P X) (p : P) (e : X) :
    normDensity A p e = ∑ i ∈ Finset.range A.n, ∑ j ∈ Finset.range A.n,
      A.coup i p * (starRingEnd ℂ) (A.coup j p) * D A p i j e := by
  unfold normDensity D PAmps.tot
  simp only [Finset.mul_sum]
  symm
  refine (sum_move _ _ _ _).trans ?_
  apply Finset.sum_congr rfl
  intro m1 _
  refine (sum_move _ _ _ _).trans ?_
  apply Finset.sum_congr rfl
  intro m2 _
  refine (sum_move _ _ _ _).trans ?_
  apply Finset.sum_congr rfl
  intro f _
  symm
  rw [map_sum, Finset.sum_mul_sum, Finset.mul_sum]
  apply Finset.sum_congr rfl
  intro i _
  rw [Finset.mul_sum]
  apply Finset.sum_congr rfl
  intro j _
  rw [map_mul]
  ring

theorem normSum_eq (A : PAmps P X) (p : P) {s : St P X W} {evs : List (Fin W → SimEvent X)}
    (he : s.integ.events = some evs)
    (h : ∀ i j, i ≤ j → j < A.n → NCached A s i j (A.ext i p) (A.ext j p)) :
    normSum A p (densityMatrix A.s1 (A.pol p)) s.norms = average evs fun e => (normDensity A p e).re := by
  unfold normSum
  rw [← averageC_re]
  congr 1
  refine (foldl_double (fun i j => A.coup i p * (starRingEnd ℂ) (A.coup j p) *
      (if i > j then (starRingEnd ℂ) (normTotal A p (densityMatrix A.s1 (A.pol p)) s.norms j i)
        else normTotal A p (densityMatrix A.s1 (A.pol p)) s.norms i j)) (List.range A.n) (List.range A.n) 0).trans ?_
  rw [zero_add, list_range_sum]
  have : normDensity A p = fun e => ∑ i ∈ Finset.range A.n, ∑ j ∈ Finset.range A.n,
      A.coup i p * (starRingEnd ℂ) (A.coup j p) * D A p i j e := funext fun e => normDensity_eq A p e
  rw [this, averageC_sum]
  apply Finset.sum_congr rfl
  intro i hi
  rw [list_range_sum, averageC_sum]
  apply Finset.sum_congr rfl
  intro j hj
  rw [averageC_mul]
  congr 1
  rw [Finset.mem_range] at hi hj
  by_cases hij : i > j
  · rw [if_pos hij, normTotal_eq A p he (h j i (by omega) hi), averageC_conj]
    congr 1
    funext e
    exact D_conj A p j i e
  · rw [if_neg hij, normTotal_eq A p he (h i j (by omega) hj)]

/-! ### The probability -/

theorem T_eq (A : PAmps P X) (p : P) (x : X) (m : Fin A.s1) (f : Fin A.s2) : A.T p x m f = A.tot p m f x := rfl

theorem density_eq (A : PAmps P X) (p : P) (x : X) :
    A.density p x = (∑ a ∈ Finset.range A.s1, ∑ b ∈ Finset.range A.s1, rhoExpr A.s1 (A.pol p) a b *
      ∑ f ∈ Finset.range A.s2, A.tot p b f x *
        (match A.frac with
          | none => 1
          | some fr => if f = 0 then (fr p : ℂ) else if f = 1 then 1 - (fr p : ℂ) else 0) *
        (starRingEnd ℂ) (A.tot p a f x)).re := by
  unfold PAmps.density Matrix.trace
  congr 1
  rw [Finset.sum_range]
  apply Finset.sum_congr rfl
  intro a _
  rw [Finset.sum_range]
  rw [Matrix.diag_apply, Matrix.mul_apply]
  apply Finset.sum_congr rfl
  intro b _
  congr 1
  rw [Matrix.mul_apply, Finset.sum_range]
  apply Finset.sum_congr rfl
  intro f _
  rw [Matrix.conjTranspose_apply, T_eq]
  congr 1
  unfold PAmps.rhof
  cases A.frac with
  | none => rw [Matrix.mul_one, T_eq, mul_one]
  | some fr => rw [Matrix.mul_diagonal, T_eq]

theorem transition_eq (A : PAmps P X) (p : P) (x1 : Nat → ℂ) (x : X)
    (h : ∀ i < A.n, ∀ c < A.s1 * A.s2, x1 (A.s1 * A.s2 * i + c) = A.amp i (A.ext i p) x c)
    {m f : Nat} (hm : m < A.s1) (hf : f < A.s2) : transition A p x1 m f = A.tot p m f x := by
  unfold transition PAmps.tot
  rw [foldl_range_sum, zero_add]
  apply Finset.sum_congr rfl
  intro i hi
  rw [h i (Finset.mem_range.mp hi) _ (comp_lt hm hf)]
  rfl

theorem probExpr_eq (A : PAmps P X) (p : P) (x1 : Nat → ℂ) (x : X)
    (h : ∀ i < A.n, ∀ c < A.s1 * A.s2, x1 (A.s1 * A.s2 * i + c) = A.amp i (A.ext i p) x c) :
    probExpr A p x1 = A.density p x := by
  rw [density_eq]
  unfold probExpr
  simp only
  congr 1
  apply Finset.sum_congr rfl
  intro a ha
  apply Finset.sum_congr rfl
  intro b hb
  congr 1
  apply Finset.sum_congr rfl
  intro f hf
  rw [Finset.sum_eq_single f]
  · rw [transition_eq A p x1 x h (Finset.mem_range.mp hb) (Finset.mem_range.mp hf),
      transition_eq A p x1 x h (Finset.mem_range.mp ha) (Finset.mem_range.mp hf)]
    congr 2
    cases A.frac with
    | none => simp
    | some fr => simp
  · intro c _ hcf
    cases A.frac with
    | none => simp [Ne.symm hcf]
    | some fr =>
      simp only
      rw [if_neg (by omega), if_neg (by omega), mul_zero, zero_mul]
  · intro h'; exact absurd hf h'

/-- The two agree unless a polarisation fraction is used with a polarised initial state. -/
theorem normDensity_density (A : PAmps P X) (p : P) (x : X) (hf : A.frac.isSome → A.s1 = 1 ∧ A.s2 = 2) :
    (normDensity A p x).re = A.density p x := by
  rw [density_eq]
  congr 1
  unfold normDensity
  rw [Finset.sum_comm]
  apply Finset.sum_congr rfl
  intro a ha
  apply Finset.sum_congr rfl
  intro b hb
  rw [Finset.mul_sum]
  apply Finset.sum_congr rfl
  intro f hff
  rw [Finset.mem_range] at ha hb hff
  have hr := rhoExpr_eq A.s1 (A.pol p) ha hb
  unfold fac
  cases hfr : A.frac with
  | none => simp only; rw [hr]; ring
  | some fr =>
    obtain ⟨h1, h2⟩ := hf (by rw [hfr]; rfl)
    have ha0 : a = 0 := by omega
    have hb0 : b = 0 := by omega
    subst ha0; subst hb0
    simp only [Nat.zero_mul, Nat.add_zero, if_true] at hr ⊢
    rw [hr]
    by_cases h0 : f = 0
    · subst h0; simp; ring
    · have h1 : f = 1 := by omega
      subst h1; simp; ring

end AmpGen.Polarised
