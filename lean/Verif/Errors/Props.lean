import Verif.Errors.Lemmas
import Mathlib.Tactic.NormNum
/-
C38 (error propagation), C58 (weighted combinations), C59 (adding propagators) and C60 (Gaussian perturbations).
-/
namespace AmpGen.Errors
open Finset
open AmpGen.Strings (Str)

/-- C38.  Calculating an uncertainty, the uncertainties of a vector or a covariance matrix leaves every parameter at its value, whatever the functions, the
covariance matrix and the list of parameters. -/
theorem error_propagation_restores (P : Linear) (s : Store) :
    (∀ f : Fcn, (P.getError f s).2 = s) ∧ (∀ (f : Store → List ℝ) (rank : Nat), (P.getVectorError f rank s).2 = s) ∧
      ∀ fs : List Fcn, (P.covarianceMatrix fs s).2 = s := by
  refine ⟨fun f => ?_, fun f rank => ?_, fun fs => ?_⟩
  · unfold Linear.getError
    rw [gradient_eq]
  · rw [getVectorError_eq]
  · unfold Linear.covarianceMatrix
    rw [jacobian_eq]

/-- C38.  For functions linear in distinct parameters that all have a positive variance, the square of the uncertainty is gradient times covariance times
gradient, each component of a vector of functions has its own uncertainty, and the covariance of two functions is gradient times covariance times the
other gradient.

Missing: parameters with no variance, see the counterexample. -/
theorem error_propagation_linear_partial (P : Linear) (hd : P.params.Nodup) (hv : ∀ i, i < P.params.length → 0 < P.cov i i) (s : Store) :
    (∀ f g, LinearIn P.params g f → 0 ≤ form P.params.length P.cov g g →
      (P.getError f s).1 = some (Real.sqrt (form P.params.length P.cov g g))) ∧
    (∀ f rank g j, j < rank → LinearIn P.params g (fun s => (f s).getD j 0) → 0 ≤ form P.params.length P.cov g g →
      (P.getVectorError f rank s).1[j]? = some (some (Real.sqrt (form P.params.length P.cov g g)))) ∧
    ∀ fs : List Fcn, ∀ i j, ∀ hi : i < fs.length, ∀ hj : j < fs.length, ∀ g h, LinearIn P.params g fs[i] → LinearIn P.params h fs[j] →
      (P.covarianceMatrix fs s).1 i j = some (form P.params.length P.cov g h) := by
  have key : ∀ f g, LinearIn P.params g f → 0 ≤ form P.params.length P.cov g g →
      (P.getError f s).1 = some (Real.sqrt (form P.params.length P.cov g g)) := by
    intro f g hf h0
    unfold Linear.getError
    have := gradient_linear hd hf s hv
    simp only [this, Option.bind_some, dot_eq]
    unfold sqrt
    rw [if_neg (not_lt.2 h0)]
  refine ⟨key, ?_, ?_⟩
  · intro f rank g j hj hf h0
    rw [getVectorError_eq]
    simp only
    rw [List.getElem?_map, List.getElem?_range hj, Option.map_some, key _ g hf h0]
  · intro fs i j hi hj g h hg hh
    unfold Linear.covarianceMatrix
    rw [jacobian_eq]
    simp only
    have e : ∀ k, ∀ hk : k < fs.length, (fs.map fun f => (P.gradient f s).1).getD k [] = (P.gradient fs[k] s).1 := by
      intro k hk
      rw [List.getD_eq_getElem _ _ (by simpa using hk)]
      simp
    rw [e i hi, e j hj, gradient_linear hd hg s hv, gradient_linear hd hh s hv]
    simp only [Option.bind_some]
    congr 1
    unfold form
    refine Finset.sum_congr rfl fun k hk => Finset.sum_congr rfl fun l hl => ?_
    rw [getD_map_range _ _ (Finset.mem_range.1 hk), getD_map_range _ _ (Finset.mem_range.1 hl)]

/-- Two correlated parameters. -/
def demo : Linear := ⟨fun i j => if i = j then 4 else 1, [5, 3]⟩

/-- The sum of the first and twice the second, and a third parameter. -/
def demoFcn : Fcn := fun s => s 5 + 2 * s 3 + s 7

theorem demo_linear : LinearIn [5, 3] (fun i => if i = 0 then 1 else 2) demoFcn := by
  intro v w h
  have := h 7 (by decide)
  simp [Finset.sum_range_succ, demoFcn, this]
  ring

example (s : Store) : (demo.getError demoFcn s).1 = some (Real.sqrt 24) ∧ (demo.getError demoFcn s).2 = s := by
  have e : form demo.params.length demo.cov (fun i => if i = 0 then 1 else 2) (fun i => if i = 0 then 1 else 2) = 24 := by
    simp [form, demo, Finset.sum_range_succ]
    norm_num
  refine ⟨?_, (error_propagation_restores demo s).1 _⟩
  rw [(error_propagation_linear_partial demo (by decide) (by intro i _; simp [demo]) s).1 demoFcn _ demo_linear (by rw [e]; norm_num), e]

/-- C38, for propagators made from the free parameters of a set: the uncertainty of a function linear in them is the root of the sum of the squares of the
coefficients times the errors. -/
theorem error_of_parameters (free : Nat → Bool) (err : Nat → ℝ) (params : List Nat) (hd : params.Nodup) (s : Store) (f : Fcn) (g : Nat → ℝ)
    (hf : ∀ v w : Store, (∀ p, free p = false → v p = w p) → f v - f w = (params.map fun p => if free p then g p * (v p - w p) else 0).sum) :
    ((Linear.ofParams free err params).getError f s).1 = some (Real.sqrt ((params.map fun p => if free p then (g p * err p) ^ 2 else 0).sum)) := by
  set P := Linear.ofParams free err params with hP
  have hps : P.params = params.filter fun p => free p && decide (err p ≠ 0) := rfl
  have hcov : ∀ i j, P.cov i j = if i = j then err (P.params.getD i 0) * err (P.params.getD i 0) else 0 := fun _ _ => rfl
  have hmem : ∀ i, i < P.params.length → free (P.params.getD i 0) = true ∧ err (P.params.getD i 0) ≠ 0 ∧ P.params.getD i 0 ∈ params := by
    intro i hi
    rw [List.getD_eq_getElem _ _ hi]
    have : P.params[i] ∈ params.filter fun p => free p && decide (err p ≠ 0) := List.getElem_mem hi
    simp only [List.mem_filter, Bool.and_eq_true, decide_eq_true_eq] at this
    exact ⟨this.2.1, this.2.2, this.1⟩
  -- sums over the selected parameters
  have hsum : ∀ F : Nat → ℝ, ∑ i ∈ range P.params.length, F (P.params.getD i 0) = (params.map fun p => if free p && decide (err p ≠ 0) then F p else 0).sum := by
    intro F
    exact sum_filter F _ params
  have hlin : LinearIn P.params (fun i => g (P.params.getD i 0)) f := by
    intro v w h
    rw [hsum fun p => g p * (v p - w p), hf v w ?_]
    · congr 1
      apply List.map_congr_left
      intro p hp
      by_cases h1 : free p
      · by_cases h2 : err p = 0
        · have : v p = w p := h p (by rw [hps]; simp [h2])
          simp [this]
        · simp [h1, h2]
      · simp [h1]
    · intro p hp
      exact h p (by rw [hps]; simp [hp])
  have hform : form P.params.length P.cov (fun i => g (P.params.getD i 0)) (fun i => g (P.params.getD i 0)) =
      (params.map fun p => if free p then (g p * err p) ^ 2 else 0).sum := by
    have h1 : form P.params.length P.cov (fun i => g (P.params.getD i 0)) (fun i => g (P.params.getD i 0)) =
        ∑ i ∈ range P.params.length, (g (P.params.getD i 0) * err (P.params.getD i 0)) ^ 2 := by
      unfold form
      apply Finset.sum_congr rfl
      intro i hi
      rw [Finset.sum_eq_single i]
      · rw [hcov, if_pos rfl]; ring
      · intro j _ hj
        rw [hcov, if_neg (Ne.symm hj)]; ring
      · intro h; exact absurd hi h
    rw [h1, hsum fun p => (g p * err p) ^ 2]
    congr 1
    apply List.map_congr_left
    intro p _
    by_cases h1 : free p <;> by_cases h2 : err p = 0 <;> simp [h1, h2]
  rw [← hform]
  refine (error_propagation_linear_partial P (hd.filter _) ?_ s).1 f _ hlin ?_
  · intro i hi
    rw [hcov, if_pos rfl]
    exact mul_self_pos.2 (hmem i hi).2.1
  · rw [hform]
    apply List.sum_nonneg
    intro x hx
    obtain ⟨p, _, rfl⟩ := List.mem_map.1 hx
    split
    · positivity
    · exact le_rfl

example (s : Store) : ((Linear.ofParams (fun p => p = 0) (fun _ => 3) [0, 1]).getError (fun s => 2 * s 0) s).1 = some (Real.sqrt 36) := by
  rw [error_of_parameters (fun p => p = 0) (fun _ => 3) [0, 1] (by decide) s _ (fun _ => 2) (by
    intro v w _
    simp
    ring)]
  congr 2
  norm_num

/-- C38 is false where a parameter has no variance, as a fixed parameter in the covariance matrix of a fit: the uncertainty of every function, even one that
does not depend on that parameter, is not a number. -/
theorem error_zero_variance_counterexample (P : Linear) (i : Nat) (hi : i < P.params.length) (h : P.cov i i = 0) (f : Fcn) (s : Store) :
    (P.getError f s).1 = none := by
  unfold Linear.getError
  rw [gradient_eq]
  have : (P.derivative f s i).1 = none := by
    unfold Linear.derivative sqrt
    rw [h]
    simp [divide]
  simp only
  rw [allSome_none (List.mem_map.2 ⟨i, List.mem_range.2 hi, this⟩)]
  rfl

example (s : Store) : ((⟨fun i j => if i = 1 ∧ j = 1 then 4 else 0, [5, 3]⟩ : Linear).getError (fun s => s 3) s).1 = none :=
  error_zero_variance_counterexample _ 0 (by decide) (by simp) _ s

/-- C38 is false for the propagator that samples: it leaves the parameters at the last sample, and what it returns is too small by the square of the number of
functions. -/
theorem nonlinear_propagator_counterexample : ∃ (params : List Nat) (fs : List Fcn) (sample : List ℝ) (s : Store), params.Nodup ∧ fs.length = 2 ∧
    (nonlinear params fs [sample] s).2 ≠ s ∧
    (nonlinear params fs [sample] s).1 0 0 = some (1 / 4) ∧ ∀ f ∈ fs, (f (assign params sample s) - f s) ^ 2 = 1 := by
  refine ⟨[0], [fun s => s 0, fun s => s 0], [1], fun _ => 0, by decide, rfl, ?_, ?_, ?_⟩
  · intro h
    have := congrFun h 0
    simp [nonlinear, sampleStep, assign] at this
  · simp [nonlinear, sampleStep, assign, divide]
    norm_num
  · simp [assign]

/-- C38.  In a correlation matrix the diagonal is one. -/
theorem correlation_diagonal (cov : Nat → Nat → Option ℝ) (i : Nat) {c : ℝ} (h : cov i i = some c) (hc : 0 < c) : correlation cov i i = some 1 := by
  unfold correlation sqrt
  rw [h]
  have h1 : ¬ c * c < 0 := not_lt.2 (mul_self_nonneg c)
  simp only [Option.bind_some, if_neg h1, Real.sqrt_mul_self hc.le, divide, if_neg hc.ne']
  rw [div_self hc.ne']

/-- C58.  If `inv` is the inverse of the covariance matrix of the estimators, then the weights of a combination add up to one, the combination is the weighted
mean of the values, the reported variance is that of the weighted mean, and no other weights that add up to one give a smaller variance. -/
theorem combination_weighted (n : Nat) (cov inv : Nat → Nat → ℝ) (values : Nat → ℝ)
    (hi : ∀ i j, i < n → j < n → ∑ k ∈ range n, cov i k * inv k j = if i = j then 1 else 0) (hs : ∀ i j, cov i j = cov j i)
    (hp : ∀ a, 0 ≤ form n cov a a) (hw : ∑ i ∈ range n, ∑ j ∈ range n, inv i j ≠ 0) :
    ∃ u : Nat → ℝ, combinationWeights n inv = (List.range n).map (fun i => some (u i)) ∧ ∑ i ∈ range n, u i = 1 ∧
      combine n cov inv values = some (∑ i ∈ range n, u i * values i, form n cov u u) ∧
      ∀ v : Nat → ℝ, ∑ i ∈ range n, v i = 1 → form n cov u u ≤ form n cov v v := by
  set wt := ∑ i ∈ range n, ∑ j ∈ range n, inv i j with hwt
  let u : Nat → ℝ := fun i => (∑ j ∈ range n, inv i j) / wt
  have hu : ∑ i ∈ range n, u i = 1 := by
    rw [← Finset.sum_div, ← hwt, div_self hw]
  refine ⟨u, ?_, hu, ?_, ?_⟩
  · unfold combinationWeights divide
    simp only
    rw [← hwt]
    simp only [if_neg hw, u]
  · unfold combine
    simp only
    rw [← hwt, if_neg hw]
    congr 2
    · refine Finset.sum_congr rfl fun i _ => ?_
      simp only [u]
      ring
    · unfold form
      refine Finset.sum_congr rfl fun i _ => Finset.sum_congr rfl fun j _ => ?_
      simp only [u]
      field_simp
  · intro v hv
    have hu2 : ∀ a, form n cov a u = (∑ i ∈ range n, a i) / wt := fun a => form_weights hi a wt
    have hd := hp fun i => v i + -(u i)
    have e : form n cov (fun i => v i + -(u i)) (fun i => v i + -(u i)) =
        form n cov v v - form n cov v u - form n cov u v + form n cov u u := by
      unfold form
      rw [← Finset.sum_sub_distrib, ← Finset.sum_sub_distrib, ← Finset.sum_add_distrib]
      refine Finset.sum_congr rfl fun i _ => ?_
      rw [← Finset.sum_sub_distrib, ← Finset.sum_sub_distrib, ← Finset.sum_add_distrib]
      refine Finset.sum_congr rfl fun j _ => ?_
      ring
    rw [e, form_symm hs u v, hu2 v, hu2 u, hv, hu] at hd
    rw [hu2 u, hu]
    linarith

example : combine 2 (fun i j => if i = j then (if i = 0 then 1 else 2) else 0) (fun i j => if i = j then (if i = 0 then 1 else 1 / 2) else 0)
    (fun i => if i = 0 then 3 else 6) = some (4, 2 / 3) := by
  simp [combine, Finset.sum_range_succ]
  norm_num

/-- C59.  Adding a propagator to another adds the covariances of the parameters, which are identified by their names: the covariance of any two names is the
sum of the two covariances.  The parameters of the first keep their positions, those of the second that are new follow in order, and if each propagator
has at most one parameter of each name so has the sum. -/
theorem propagators_add (name : Nat → Str) (P Q : Linear) :
    (∀ n m, covBetween name (P.add Q name) n m = covBetween name P n m + covBetween name Q n m) ∧
    (P.add Q name).params = P.params ++ Q.params.filter (fun q => ∀ p ∈ P.params, name p ≠ name q) ∧
    ((P.params.map name).Nodup → (Q.params.map name).Nodup → ((P.add Q name).params.map name).Nodup) := by
  obtain ⟨extra, h1, h2, h3, h4⟩ := place_spec P name Q.params P.params.length P.params rfl (List.prefix_rfl)
  have hnone : ∀ x, (P.posMap name (name x) = none) ↔ ∀ p ∈ P.params, name p ≠ name x := by
    intro x
    constructor
    · exact posMap_none
    · intro h
      cases hx : P.posMap name (name x) with
      | none => rfl
      | some pos =>
        obtain ⟨h5, h6⟩ := posMap_some hx
        refine absurd h6 (h _ ?_)
        unfold Linear.at
        rw [List.getD_eq_getElem _ _ h5]
        exact List.getElem_mem h5
  have hpar : (P.add Q name).params = P.params ++ extra := h1
  have hext : extra = Q.params.filter (fun q => ∀ p ∈ P.params, name p ≠ name q) := by
    rw [h2]
    apply List.filter_congr
    intro x _
    rw [decide_eq_decide]
    exact hnone x
  refine ⟨?_, by rw [hpar, hext], ?_⟩
  · intro n m
    set props := (P.place name Q.params P.params.length P.params).1 with hprops
    have hcov : ∀ a b, (P.add Q name).cov a b = (if a < P.params.length ∧ b < P.params.length then P.cov a b else 0) +
        ∑ x ∈ range Q.params.length, ∑ y ∈ range Q.params.length, if props.getD x 0 = a ∧ props.getD y 0 = b then Q.cov x y else 0 := by
      intro a b
      exact add_outer (fun x => props.getD x 0) Q.cov (fun x y => if x < P.params.length ∧ y < P.params.length then P.cov x y else 0) _ _ a b
    unfold covBetween
    rw [hpar]
    set M := (P.params ++ extra).length with hM
    have hPM : P.params.length ≤ M := by rw [hM, List.length_append]; omega
    set nm : Nat → Str := fun a => name ((P.params ++ extra).getD a 0) with hnm
    have step : ∀ a b, (if nm a = n ∧ nm b = m then (P.add Q name).cov a b else 0) =
        (if nm a = n ∧ nm b = m then (if a < P.params.length ∧ b < P.params.length then P.cov a b else 0) else 0) +
        ∑ x ∈ range Q.params.length, ∑ y ∈ range Q.params.length, if nm a = n ∧ nm b = m ∧ props.getD x 0 = a ∧ props.getD y 0 = b then Q.cov x y else 0 := by
      intro a b
      rw [hcov]
      by_cases h : nm a = n ∧ nm b = m
      · rw [if_pos h, if_pos h]
        congr 1
        refine Finset.sum_congr rfl fun x _ => Finset.sum_congr rfl fun y _ => ?_
        simp [h.1, h.2]
      · rw [if_neg h, if_neg h, zero_add]
        symm
        refine Finset.sum_eq_zero fun x _ => Finset.sum_eq_zero fun y _ => ?_
        rw [if_neg (fun h' => h ⟨h'.1, h'.2.1⟩)]
    rw [Finset.sum_congr rfl fun a _ => Finset.sum_congr rfl fun b _ => step a b]
    simp only [Finset.sum_add_distrib]
    congr 1
    · -- the old part
      have sub : ∀ F : Nat → ℝ, (∀ a, P.params.length ≤ a → F a = 0) → ∑ a ∈ range M, F a = ∑ a ∈ range P.params.length, F a := by
        intro F hF
        symm
        apply Finset.sum_subset
        · intro x hx
          exact Finset.mem_range.2 (lt_of_lt_of_le (Finset.mem_range.1 hx) hPM)
        · intro x _ hx
          exact hF x (not_lt.1 fun h => hx (Finset.mem_range.2 h))
      rw [sub]
      · apply Finset.sum_congr rfl
        intro a ha
        rw [sub]
        · apply Finset.sum_congr rfl
          intro b hb
          have ha := Finset.mem_range.1 ha
          have hb := Finset.mem_range.1 hb
          simp only [hnm]
          rw [List.getD_append _ _ _ _ ha, List.getD_append _ _ _ _ hb]
          simp [ha, hb]
        · intro b hb
          simp [Nat.not_lt.2 hb]
      · intro a ha
        refine Finset.sum_eq_zero fun b _ => ?_
        simp [Nat.not_lt.2 ha]
    · -- the new part
      have swap : ∑ a ∈ range M, ∑ b ∈ range M, ∑ x ∈ range Q.params.length, ∑ y ∈ range Q.params.length,
          (if nm a = n ∧ nm b = m ∧ props.getD x 0 = a ∧ props.getD y 0 = b then Q.cov x y else 0) =
          ∑ x ∈ range Q.params.length, ∑ y ∈ range Q.params.length, ∑ a ∈ range M, ∑ b ∈ range M,
          (if nm a = n ∧ nm b = m ∧ props.getD x 0 = a ∧ props.getD y 0 = b then Q.cov x y else 0) := by
        have e1 : ∀ a, ∑ b ∈ range M, ∑ x ∈ range Q.params.length, ∑ y ∈ range Q.params.length,
            (if nm a = n ∧ nm b = m ∧ props.getD x 0 = a ∧ props.getD y 0 = b then Q.cov x y else 0) =
            ∑ x ∈ range Q.params.length, ∑ y ∈ range Q.params.length, ∑ b ∈ range M,
            (if nm a = n ∧ nm b = m ∧ props.getD x 0 = a ∧ props.getD y 0 = b then Q.cov x y else 0) := by
          intro a
          rw [Finset.sum_comm]
          refine Finset.sum_congr rfl fun x _ => ?_
          rw [Finset.sum_comm]
        rw [Finset.sum_congr rfl fun a _ => e1 a, Finset.sum_comm]
        refine Finset.sum_congr rfl fun x _ => ?_
        rw [Finset.sum_comm]
      rw [swap]
      refine Finset.sum_congr rfl fun x hx => Finset.sum_congr rfl fun y hy => ?_
      obtain ⟨hx1, hx2⟩ := h4 x (Finset.mem_range.1 hx)
      obtain ⟨hy1, hy2⟩ := h4 y (Finset.mem_range.1 hy)
      rw [Finset.sum_eq_single (props.getD x 0)]
      · rw [Finset.sum_eq_single (props.getD y 0)]
        · rw [← hx2, ← hy2]
          simp only [and_true]
          rfl
        · intro b _ hb
          rw [if_neg (fun h => hb h.2.2.2.symm)]
        · intro h
          exact absurd (Finset.mem_range.2 hy1) h
      · intro a _ ha
        refine Finset.sum_eq_zero fun b _ => ?_
        rw [if_neg (fun h => ha h.2.2.1.symm)]
      · intro h
        exact absurd (Finset.mem_range.2 hx1) h
  · intro hP hQ
    rw [hpar, hext, List.map_append, List.nodup_append]
    refine ⟨hP, hQ.sublist (List.filter_sublist.map name), ?_⟩
    intro a ha b hb hab
    obtain ⟨p, hp, rfl⟩ := List.mem_map.1 ha
    obtain ⟨q, hq, rfl⟩ := List.mem_map.1 hb
    have := (List.mem_filter.1 hq).2
    rw [decide_eq_true_eq] at this
    exact this p hp hab

example : ((⟨fun _ _ => 1, [0, 1]⟩ : Linear).add ⟨fun _ _ => 2, [2, 3]⟩ (fun i => if i = 1 ∨ i = 2 then ['a'] else if i = 0 then ['b'] else ['c'])).params = [0, 1, 3] := by
  rw [(propagators_add _ _ _).2.1]
  decide

/-- C60.  For any upper triangular (or any other) matrix `U` and any random numbers `e`, a perturbation moves distinct parameters from the values they had when
the propagator was made by the transpose of `U` applied to `e`, and leaves all others; so the covariance of the perturbations is the matrix that `U`
decomposes.  After any number of perturbations, resetting restores all parameters. -/
theorem gauss_propagator (params : List Nat) (U : Nat → Nat → ℝ) (s : Store) (es : List (Nat → ℝ)) :
    let G := Gauss.make params U s
    let s' := es.foldl (fun s e => G.perturb e s) s
    (params.Nodup → ∀ e, (∀ i, ∀ hi : i < params.length, G.perturb e s' params[i] = s params[i] + ∑ k ∈ range params.length, U k i * e k) ∧
      ∀ p, p ∉ params → G.perturb e s' p = s p) ∧ G.reset s' = s := by
  intro G s'
  have hout : ∀ p, p ∉ params → s' p = s p := by
    intro p hp
    have : ∀ (es : List (Nat → ℝ)) (t : Store), t p = s p → es.foldl (fun s e => G.perturb e s) t p = s p := by
      intro es
      induction es with
      | nil => intro t h; exact h
      | cons e es ih =>
        intro t h
        rw [List.foldl_cons]
        apply ih
        unfold Gauss.perturb
        rw [assign_of_not_mem (show p ∉ G.params from hp), h]
    exact this es s rfl
  refine ⟨fun hd e => ⟨?_, ?_⟩, ?_⟩
  · intro i hi
    unfold Gauss.perturb
    have h := assign_nodup (ps := params) hd (vs := (List.range G.params.length).map fun j => G.start.getD j 0 + ∑ k ∈ range G.params.length, G.chol j k * e k)
      (by simp; rfl) s' hi
    refine h.trans ?_
    simp only [List.getElem_map, List.getElem_range]
    congr 1
    · show (params.map s).getD i 0 = _
      rw [List.getD_eq_getElem _ _ (by simpa using hi)]
      simp
    · refine Finset.sum_congr rfl fun k hk => ?_
      rw [show G.chol i k = U k i from transpose_eq params.length U i k hi (Finset.mem_range.1 hk)]
  · intro p hp
    unfold Gauss.perturb
    rw [assign_of_not_mem (show p ∉ G.params from hp), hout p hp]
  · funext p
    unfold Gauss.reset
    rw [show assign G.params G.start s' p = _ from assign_map params s s' p]
    split
    · rfl
    · exact hout p ‹_›

example (s : Store) : (Gauss.make [4, 2] (fun i j => if i ≤ j then 1 else 0) s).perturb (fun k => if k = 0 then 1 else 10) s 2 = s 2 + 11 := by
  have h := ((gauss_propagator [4, 2] (fun i j => if i ≤ j then 1 else 0) s []).1 (by decide) (fun k => if k = 0 then 1 else 10)).1 1 (by decide)
  refine h.trans ?_
  simp [Finset.sum_range_succ]
  norm_num

end AmpGen.Errors
