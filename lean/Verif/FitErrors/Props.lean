import Verif.FitErrors.Model
import Verif.Errors.Props
/-
C148: errors and correlations from a fit result.
-/
namespace AmpGen.FitErrors
open Finset
open AmpGen.Strings (Str)
open AmpGen.Errors

/-! ### The indices -/

theorem indices_eq (r : Result) (ext : Bool) :
    r.floatingIndices ext = (List.range r.mps.length).filter fun i => match r.mps[i]? with | some p => isFloating ext p | none => false := by
  unfold Result.floatingIndices
  have : ∀ (l : List Nat) (acc : List Nat), l.foldl (fun acc i => match r.mps[i]? with
      | some p => if isFloating ext p then acc ++ [i] else acc
      | none => acc) acc = acc ++ l.filter fun i => match r.mps[i]? with | some p => isFloating ext p | none => false := by
    intro l
    induction l with
    | nil => intro acc; simp
    | cons i l ih =>
      intro acc
      rw [List.foldl_cons, ih, List.filter_cons]
      cases r.mps[i]? with
      | none => simp
      | some p => by_cases h : isFloating ext p = true <;> simp [h]
  exact (this _ []).trans (List.nil_append _)

theorem floating_eq (r : Result) (ext : Bool) : r.floating ext = r.floatingIndices ext := by
  rw [indices_eq]
  unfold Result.floating
  have : ∀ (l : List Par) (k : Nat), ((l.zipIdx k).filter fun p => isFloating ext p.1).map (fun p => p.2) =
      (List.range' k l.length).filter fun i => match l[i - k]? with | some p => isFloating ext p | none => false := by
    intro l
    induction l with
    | nil => intro k; rfl
    | cons p l ih =>
      intro k
      rw [List.zipIdx_cons, List.filter_cons, List.length_cons, List.range'_succ, List.filter_cons]
      have h1 : (List.range' (k + 1) l.length).filter (fun i => match (p :: l)[i - k]? with | some p => isFloating ext p | none => false) =
          (List.range' (k + 1) l.length).filter fun i => match l[i - (k + 1)]? with | some p => isFloating ext p | none => false := by
        apply List.filter_congr
        intro i hi
        obtain ⟨j, hj, rfl⟩ := List.mem_range'.mp hi
        rw [show k + 1 + 1 * j - k = j + 1 by omega, show k + 1 + 1 * j - (k + 1) = j by omega, List.getElem?_cons_succ]
      rw [h1, ← ih (k + 1)]
      simp only [Nat.sub_self, List.getElem?_cons_zero]
      split <;> rfl
  have h := this r.mps 0
  rw [List.range_eq_range']
  exact h

theorem indices_nodup (r : Result) (ext : Bool) : (r.floatingIndices ext).Nodup := by
  rw [indices_eq]
  exact List.nodup_range.filter _

theorem mem_indices (r : Result) (ext : Bool) (i : Nat) : i ∈ r.floatingIndices ext ↔ ∃ p, r.mps[i]? = some p ∧ isFloating ext p = true := by
  rw [indices_eq, List.mem_filter, List.mem_range]
  constructor
  · rintro ⟨_, h⟩
    cases hp : r.mps[i]? with
    | none => rw [hp] at h; exact absurd h (by simp)
    | some p => rw [hp] at h; exact ⟨p, rfl, h⟩
  · rintro ⟨p, hp, h⟩
    exact ⟨(List.getElem?_eq_some_iff.mp hp).1, by rw [hp]; exact h⟩

theorem indices_le (r : Result) (ext : Bool) : (r.floatingIndices ext).length ≤ r.mps.length := by
  rw [indices_eq]
  exact le_trans (List.length_filter_le _ _) (by simp)

/-- C148.  The reduced covariance matrix belongs to the floating parameters: these are the free and blind ones, or all, with an error above `10⁻⁶`, in the order of
the parameter set, and the entry for two of them is their covariance. -/
theorem reduced_covariance (r : Result) (ext : Bool) (hr : r.mps.length ≤ r.nRows) :
    (∀ i, i ∈ r.floating ext ↔ ∃ p, r.mps[i]? = some p ∧ (p.free = true ∨ p.blind = true ∨ ext = true) ∧ 1 / 10 ^ 6 < p.err) ∧
    (r.floating ext).Pairwise (· < ·) ∧
    ∀ a b, ∀ (ha : a < (r.floating ext).length) (hb : b < (r.floating ext).length),
      r.reducedCovariance ext a b = r.cov (r.floating ext)[a] (r.floating ext)[b] := by
  simp only [floating_eq]
  refine ⟨?_, ?_, ?_⟩
  · intro i
    rw [mem_indices]
    refine exists_congr fun p => and_congr_right fun _ => ?_
    unfold isFloating
    simp [or_assoc]
  · rw [indices_eq]
    exact List.pairwise_lt_range.filter _
  · intro a b ha hb
    unfold Result.reducedCovariance
    rw [if_neg (not_lt.mpr (le_trans (indices_le r ext) hr))]
    rw [List.getD_eq_getElem _ _ ha, List.getD_eq_getElem _ _ hb]

/-- A sum over all parameters in which only those of a list contribute is a sum over the list. -/
theorem sum_list (l : List Nat) (hd : l.Nodup) (n : Nat) (hl : ∀ i ∈ l, i < n) (F : Nat → ℝ) (hF : ∀ i, i ∉ l → F i = 0) :
    ∑ i ∈ range n, F i = ∑ a ∈ range l.length, F (l.getD a 0) := by
  have h1 : ∑ i ∈ range n, F i = ∑ i ∈ l.toFinset, F i := by
    symm
    apply Finset.sum_subset
    · intro i hi
      exact Finset.mem_range.mpr (hl i (List.mem_toFinset.mp hi))
    · intro i _ hi
      exact hF i fun h => hi (List.mem_toFinset.mpr h)
  have h2 : ∀ l : List Nat, (l.map fun i => F i).sum = ∑ a ∈ range l.length, F (l.getD a 0) := by
    intro l
    induction l with
    | nil => simp
    | cons i l ih =>
      rw [List.map_cons, List.sum_cons, ih, List.length_cons, Finset.sum_range_succ', add_comm]
      rfl
  rw [h1, List.sum_toFinset _ hd, h2]

/-- C148.  The error of a function that is linear in the floating parameters of a fit is the square root of the quadratic form of its coefficients with the
covariance matrix of all parameters.

Missing: functions of parameters with an error below `10⁻⁶`. -/
theorem fit_error_partial (r : Result) (ext : Bool) (hr : r.mps.length ≤ r.nRows) (g : Nat → ℝ)
    (hg : ∀ i, g i ≠ 0 → ∃ p, r.mps[i]? = some p ∧ (p.free = true ∨ p.blind = true ∨ ext = true) ∧ 1 / 10 ^ 6 < p.err)
    (hv : ∀ i, i ∈ r.floating ext → 0 < r.cov i i) (hp : ∀ a, 0 ≤ form r.mps.length r.cov a a)
    (f : Fcn) (hf : ∀ v w : Store, f v - f w = ∑ i ∈ range r.mps.length, g i * (v i - w i)) (s : Store) :
    (r.errorPropagator ext).getError f s = (some (Real.sqrt (form r.mps.length r.cov g g)), s) := by
  obtain ⟨hmem, _, hentry⟩ := reduced_covariance r ext hr
  obtain ⟨l, hl⟩ : ∃ l, r.floating ext = l := ⟨_, rfl⟩
  have hnd : l.Nodup := by rw [← hl, floating_eq]; exact indices_nodup r ext
  have hlt : ∀ i ∈ l, i < r.mps.length := by
    intro i hi
    rw [← hl, floating_eq, mem_indices] at hi
    obtain ⟨p, h, _⟩ := hi
    exact (List.getElem?_eq_some_iff.mp h).1
  have hz : ∀ i, i ∉ l → g i = 0 := by
    intro i hi
    by_contra h
    exact hi (hl ▸ (hmem i).mpr (hg i h))
  have hcov : ∀ a b, a < l.length → b < l.length → r.reducedCovariance ext a b = r.cov (l.getD a 0) (l.getD b 0) := by
    intro a b ha hb
    rw [hentry a b (by rw [hl]; exact ha) (by rw [hl]; exact hb), List.getD_eq_getElem _ _ ha, List.getD_eq_getElem _ _ hb]
    simp only [hl]
  have hP : r.errorPropagator ext = ⟨r.reducedCovariance ext, l⟩ := by
    unfold Result.errorPropagator
    rw [hl]
  have hform : form l.length (r.reducedCovariance ext) (fun a => g (l.getD a 0)) (fun a => g (l.getD a 0)) = form r.mps.length r.cov g g := by
    unfold form
    rw [sum_list l hnd _ hlt (fun i => ∑ j ∈ range r.mps.length, g i * r.cov i j * g j) (fun i hi => by simp [hz i hi])]
    refine Finset.sum_congr rfl fun a ha => ?_
    rw [sum_list l hnd _ hlt (fun j => g (l.getD a 0) * r.cov (l.getD a 0) j * g j) (fun i hi => by simp [hz i hi])]
    refine Finset.sum_congr rfl fun b hb => ?_
    rw [hcov a b (Finset.mem_range.mp ha) (Finset.mem_range.mp hb)]
  rw [hP]
  refine Prod.ext ?_ ((error_propagation_restores _ s).1 f)
  rw [← hform]
  refine (error_propagation_linear_partial ⟨r.reducedCovariance ext, l⟩ hnd ?_ s).1 f _ ?_ ?_
  · intro a ha
    show 0 < r.reducedCovariance ext a a
    rw [hcov a a ha ha]
    apply hv
    rw [hl, List.getD_eq_getElem _ _ ha]
    exact List.getElem_mem ha
  · intro v w hvw
    rw [hf, sum_list l hnd _ hlt (fun i => g i * (v i - w i)) (fun i hi => by simp [hz i hi])]
  · show 0 ≤ form l.length (r.reducedCovariance ext) _ _
    rw [hform]
    exact hp g

/-- C148.  A free parameter with an error of `10⁻⁷` is not propagated: the parameter itself has no error. -/
theorem small_error_counterexample (s : Store) :
    let r := Result.make [⟨"x".toList, true, false, 1 / 10 ^ 7⟩] 1 fun _ _ => 1 / 10 ^ 14
    (r.errorPropagator false).getError (fun v => v 0) s = (some 0, s) ∧ Real.sqrt (r.cov 0 0) = 1 / 10 ^ 7 := by
  intro r
  constructor
  · have hl : r.floating false = [] := by
      unfold Result.floating
      simp only [r, Result.make, List.zipIdx_cons, List.zipIdx_nil]
      rw [List.filter_cons_of_neg (p := fun p : Par × Nat => isFloating false p.1)]
      · rfl
      · unfold isFloating
        norm_num
    unfold Result.errorPropagator
    rw [hl]
    unfold Linear.getError Linear.gradient
    simp [allSome, Linear.dot, AmpGen.Errors.sqrt]
  · show Real.sqrt (1 / 10 ^ 14) = _
    rw [show (1 / 10 ^ 14 : ℝ) = (1 / 10 ^ 7) ^ 2 by norm_num]
    exact Real.sqrt_sq (by norm_num)

/-! ### Names -/

theorem mapping_spec (mps : List Par) (hd : (mps.map fun p => p.name).Nodup) (i : Nat) (p : Par) (hp : mps[i]? = some p) :
    mapping mps p.name = some i := by
  have key : ∀ k, k ≤ mps.length → ∀ j q, mps[j]? = some q →
      (List.range k).foldl (fun (m : Str → Option Nat) i => match mps[i]? with
        | some p => Function.update m p.name (some i)
        | none => m) (fun _ => none) q.name = if j < k then some j else none := by
    intro k
    induction k with
    | zero => intro _ j q _; rfl
    | succ k ih =>
      intro hk j q hq
      have ih := ih (by omega) j q hq
      rw [List.range_succ, List.foldl_append, List.foldl_cons, List.foldl_nil]
      rw [List.getElem?_eq_getElem (by omega : k < mps.length)]
      simp only
      by_cases hn : q.name = (mps[k]'(by omega)).name
      · rw [hn, Function.update_self]
        have : j = k := by
          have hj := (List.getElem?_eq_some_iff.mp hq).1
          have h2 := (List.getElem?_eq_some_iff.mp hq).2
          have := (List.Nodup.getElem_inj_iff hd (i := j) (j := k) (hi := by simpa using hj) (hj := by simpa using (by omega : k < mps.length))).mp
            (by simp only [List.getElem_map]; rw [h2, hn])
          exact this
        rw [if_pos (by omega), this]
      · rw [Function.update_of_ne hn, ih]
        have : j ≠ k := by
          rintro rfl
          exact hn (by rw [(List.getElem?_eq_some_iff.mp hq).2])
        exact if_congr (by omega) rfl rfl
  have hi := (List.getElem?_eq_some_iff.mp hp).1
  have := key mps.length (le_refl _) i p hp
  rw [if_pos hi] at this
  exact this

/-- C148.  Covariances and correlations by name, for a positive covariance matrix: the covariance of two names is that of the parameters, the correlation is
symmetric, one for a parameter with itself, and between minus one and one. -/
theorem correlation_by_name (mps : List Par) (hd : (mps.map fun p => p.name).Nodup) (nRows : Nat) (cov : Nat → Nat → ℝ)
    (hs : ∀ i j, cov i j = cov j i) (hp : ∀ a, 0 ≤ form mps.length cov a a)
    (i j : Nat) (p q : Par) (hi : mps[i]? = some p) (hj : mps[j]? = some q) (hvi : 0 < cov i i) (hvj : 0 < cov j j) :
    let r := Result.make mps nRows cov
    r.covariance p.name q.name = some (cov i j) ∧
    ∃ ρ, r.correlation p.name q.name = some ρ ∧ r.correlation q.name p.name = some ρ ∧ -1 ≤ ρ ∧ ρ ≤ 1 ∧
      ρ * Real.sqrt (cov i i) * Real.sqrt (cov j j) = cov i j ∧ (p.name = q.name → ρ = 1) := by
  intro r
  have mi : r.covMapping p.name = some i := mapping_spec mps hd i p hi
  have mj : r.covMapping q.name = some j := mapping_spec mps hd j q hj
  have hpos : 0 < cov i i * cov j j := mul_pos hvi hvj
  have hc : ∀ a b : Nat, 0 < cov a a * cov b b →
      divide (some (cov a b)) (AmpGen.Errors.sqrt (cov a a * cov b b)) = some (cov a b / Real.sqrt (cov a a * cov b b)) := by
    intro a b h
    unfold AmpGen.Errors.sqrt
    rw [if_neg (not_lt.mpr h.le)]
    unfold divide
    simp only
    rw [if_neg (Real.sqrt_pos.mpr h).ne']
  refine ⟨by unfold Result.covariance; rw [mi, mj]; rfl, cov i j / Real.sqrt (cov i i * cov j j), ?_, ?_, ?_⟩
  · unfold Result.correlation
    rw [mi, mj]
    exact hc i j hpos
  · unfold Result.correlation
    rw [mi, mj]
    show divide (some (cov j i)) (AmpGen.Errors.sqrt (cov j j * cov i i)) = _
    rw [hs j i, mul_comm (cov j j)]
    exact hc i j hpos
  · obtain ⟨σ, hσ⟩ : ∃ σ, Real.sqrt (cov i i * cov j j) = σ := ⟨_, rfl⟩
    have hσ0 : 0 < σ := hσ ▸ Real.sqrt_pos.mpr hpos
    have hσ2 : σ ^ 2 = cov i i * cov j j := by rw [← hσ]; exact Real.sq_sqrt hpos.le
    have hcs : cov i j ^ 2 ≤ cov i i * cov j j := by
      have hil := (List.getElem?_eq_some_iff.mp hi).1
      have hjl := (List.getElem?_eq_some_iff.mp hj).1
      have h := hp fun k => (if k = i then cov j j else 0) - (if k = j then cov i j else 0)
      have e : form mps.length cov (fun k => (if k = i then cov j j else 0) - (if k = j then cov i j else 0))
          (fun k => (if k = i then cov j j else 0) - (if k = j then cov i j else 0)) = cov j j * (cov i i * cov j j - cov i j ^ 2) := by
        unfold form
        simp only [sub_mul, mul_sub, Finset.sum_sub_distrib, ite_mul, mul_ite, zero_mul, mul_zero, Finset.sum_ite_eq', Finset.mem_range, hil, hjl, if_true]
        rw [hs j i]
        ring
      rw [e] at h
      by_contra hlt
      push Not at hlt
      nlinarith
    rw [hσ]
    refine ⟨?_, ?_, ?_, ?_⟩
    · rw [le_div_iff₀ hσ0]
      have := (abs_le_of_sq_le_sq' (a := cov i j) (b := σ) (by rw [hσ2]; exact hcs) hσ0.le).1
      linarith
    · rw [div_le_one hσ0]
      exact (abs_le_of_sq_le_sq' (by rw [hσ2]; exact hcs) hσ0.le).2
    · rw [mul_assoc, ← Real.sqrt_mul hvi.le, hσ]
      field_simp
    · intro h
      have : i = j := by
        have h1 := mapping_spec mps hd i p hi
        rw [h, mapping_spec mps hd j q hj] at h1
        exact (Option.some.inj h1).symm
      subst this
      rw [← hσ, Real.sqrt_mul_self hvi.le]
      exact div_self hvi.ne'

/-- C148.  The covariance of a copy of a fit result cannot be asked for by name: there is no covariance, and all correlations are minus one, also that of a parameter
with itself. -/
theorem copied_correlation_counterexample (r : Result) (x y : Str) : r.copy.covariance x y = none ∧ r.copy.correlation x y = some (-1) :=
  ⟨rfl, rfl⟩

/-- C148.  A copy has the same reduced covariance and errors, and for a whole number of bins and parameters the same degrees of freedom. -/
theorem copied_errors (r : Result) (ext : Bool) :
    r.copy.errorPropagator ext = r.errorPropagator ext ∧
    (∀ a b : Int, r.nBins = a → r.nParam = b → r.copy.dof = r.dof) := by
  refine ⟨rfl, fun a b ha hb => ?_⟩
  unfold Result.dof Result.copy
  simp only [ha, hb, Int.floor_intCast, Int.ceil_intCast, ite_self]

theorem countFloating_eq (mps : List Par) : countFloating mps = (mps.filter fun p => p.free || p.blind).length := by
  unfold countFloating
  have : ∀ (l : List Par) (n : ℝ), l.foldl (fun n p => if p.free || p.blind then n + 1 else n) n = n + (l.filter fun p => p.free || p.blind).length := by
    intro l
    induction l with
    | nil => intro n; simp
    | cons p l ih =>
      intro n
      rw [List.foldl_cons, ih, List.filter_cons]
      split
      · push_cast [List.length_cons]; ring_nf
      · rfl
  rw [this, zero_add]

/-- C148.  The degrees of freedom count the free and blind parameters. -/
theorem degrees_of_freedom (mps : List Par) (nRows : Nat) (cov : Nat → Nat → ℝ) (bins : ℝ) :
    ({ Result.make mps nRows cov with nBins := bins }).dof = bins - (mps.filter fun p => p.free || p.blind).length - 1 := by
  unfold Result.dof Result.make
  simp only [countFloating_eq]

/-- Three parameters, of which the middle one is fixed. -/
noncomputable def demo : Result :=
  Result.make [⟨"x".toList, true, false, 2⟩, ⟨"y".toList, false, false, 0⟩, ⟨"z".toList, false, true, 3⟩] 3
    fun i j => if i = j then (if i = 0 then 4 else if i = 2 then 9 else 0) else 0

example : demo.mps.length ≤ demo.nRows ∧ (demo.mps.map fun p => p.name).Nodup ∧ (∀ i, i ∈ demo.floating false → 0 < demo.cov i i) ∧
    (∀ a, 0 ≤ form demo.mps.length demo.cov a a) ∧ demo.floating false = [0, 2] := by
  have hl : demo.floating false = [0, 2] := by
    unfold Result.floating demo Result.make
    simp [List.zipIdx_cons, List.filter_cons, isFloating]
    norm_num
  refine ⟨by decide, by decide, ?_, ?_, hl⟩
  · intro i hi
    rw [hl] at hi
    simp only [List.mem_cons, List.not_mem_nil, or_false] at hi
    rcases hi with rfl | rfl <;> norm_num [demo, Result.make]
  · intro a
    show 0 ≤ form 3 _ a a
    unfold form demo Result.make
    simp [Finset.sum_range_succ]
    nlinarith [mul_self_nonneg (a 0), mul_self_nonneg (a 2)]

end AmpGen.FitErrors
