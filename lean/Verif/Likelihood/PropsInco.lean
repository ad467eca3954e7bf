import Verif.Likelihood.Lemmas
/-
C92: what an incoherent sum computes.
-/
namespace AmpGen.Likelihood

open Coherent

variable {P X : Type} {W : Nat}

/-- C92: after any history and a final `prepare`, the density of an incoherent sum at a data
event is the yield times the sum of the squared moduli of its amplitudes, divided by the
average over the integration sample of the squared modulus of the *total* amplitude. -/
theorem inco_density (A : Amps P X) (hA : A.WF) (sched : List Req → List Req)
    (hs : ∀ q, (sched q).Perm q) (p : P) (ops : List (Op P X W)) (hops : ∀ op ∈ ops, op.Tracked)
    (evs : List (Fin W → SimEvent X)) (he : lastSim none ops = some evs) :
    let s := run A sched p (ops ++ [.prepare])
    let q := lastPar p ops
    (∀ devs, lastData none ops = some devs → ∀ b e l, devs[b]? = some e →
      incProb A s b l = A.weight q / average evs (fun x => Complex.normSq (A.total q x)) * incTotal A q (e l)) ∧
    (∀ x, incEvaluator A s x =
      A.weight q / average evs (fun x => Complex.normSq (A.total q x)) * incTotal A q x) := by
  intro s q
  obtain ⟨_, _, h3, _, h5⟩ := incremental_update_exact_partial A hA sched hs p ops hops
  obtain ⟨r1, r2, r3⟩ := run_prepare A hA sched hs p ops hops
  constructor
  · intro devs hd b e l hb
    unfold incProb incUnnorm incTotal
    rw [foldl_range_sum, zero_add, h5, h3 evs he]
    congr 1
    apply Finset.sum_congr rfl
    intro i hi
    rw [r1 i, r3 devs hd i (Finset.mem_range.mp hi) b e l hb]
  · intro x
    unfold incEvaluator incTotal
    rw [foldl_range_sum, zero_add, h5, h3 evs he]
    congr 1
    apply Finset.sum_congr rfl
    intro i hi
    rw [r1 i, r2 i (Finset.mem_range.mp hi)]
    rfl

/-- C92, the part that holds: the density averages to the yield exactly when the interference
of the amplitudes averages to zero.  Missing: that it does so in general, which is refuted
below. -/
theorem inco_normalised_partial (A : Amps P X) (hA : A.WF) (sched : List Req → List Req)
    (hs : ∀ q, (sched q).Perm q) (p : P) (ops : List (Op P X W)) (hops : ∀ op ∈ ops, op.Tracked)
    (evs : List (Fin W → SimEvent X)) (he : lastSim none ops = some evs) :
    let s := run A sched p (ops ++ [.prepare])
    let q := lastPar p ops
    average evs (fun x => Complex.normSq (A.total q x)) ≠ 0 → A.weight q ≠ 0 →
    (average evs (fun x => incEvaluator A s x) = A.weight q ↔
      average evs (fun x => Complex.normSq (A.total q x) - incTotal A q x) = 0) := by
  intro s q hn hw
  obtain ⟨_, h2⟩ := inco_density A hA sched hs p ops hops evs he
  rw [average_congr evs h2, average_mul]
  have hsub : average evs (fun x => Complex.normSq (A.total q x) - incTotal A q x) =
      average evs (fun x => Complex.normSq (A.total q x)) - average evs (incTotal A q) := by
    have e := average_add evs (fun x => Complex.normSq (A.total q x)) (fun x => (-1) * incTotal A q x)
    rw [average_mul] at e
    rw [average_congr evs (g := fun x => Complex.normSq (A.total q x) + (-1) * incTotal A q x)
      (fun x => by ring), e]
    ring
  rw [hsub]
  show A.weight q / average evs (fun x => Complex.normSq (A.total q x)) * average evs (incTotal A q) = A.weight q ↔ _
  constructor
  · intro h
    rw [div_mul_eq_mul_div, div_eq_iff hn] at h
    have := mul_left_cancel₀ hw h
    rw [this, sub_self]
  · intro h
    rw [sub_eq_zero] at h
    rw [← h, div_mul_cancel₀ _ hn]

/-- Two equal amplitudes, the coupling of the second being the parameter. -/
def twoAmps : Amps ℝ Unit where
  n := 2
  name := fun i => if i = 0 then "a" else "b"
  ext := fun _ _ => []
  amp := fun _ _ _ => 1
  coup := fun i q => if i = 0 then 1 else (q : ℂ)
  weight := fun _ => 1

theorem twoAmps_wf : twoAmps.WF where
  names := by decide
  slots := fun _ _ _ => rfl

theorem twoAmps_total (q : ℝ) (x : Unit) : Complex.normSq (twoAmps.total q x) = (1 + q) * (1 + q) := by
  have : twoAmps.total q x = ((1 + q : ℝ) : ℂ) := by
    simp [Amps.total, Amps.at, twoAmps, Finset.sum_range_succ]
  rw [this, Complex.normSq_ofReal]

theorem twoAmps_inc (q : ℝ) (x : Unit) : incTotal twoAmps q x = 1 + q * q := by
  simp [incTotal, Amps.at, twoAmps, Finset.sum_range_succ, Complex.normSq_ofReal]

/-- A sample of one event of unit weight. -/
def oneEvent : List (Fin 1 → SimEvent Unit) := [fun _ => ⟨(), 1, 1⟩]

theorem average_oneEvent (f : Unit → ℝ) : average oneEvent f = f () := by
  simp [average, oneEvent, sumOver, SimEvent.w]

/-- The documented normalisation fails: with two equal amplitudes the density of the incoherent
sum averages to one half over the sample it is normalised with, although the yield is one.
The function `norm()` returns the documented normalisation, 2, but it is not the one used. -/
theorem inco_normalised_counterexample : ∃ (A : Amps ℝ Unit) (evs : List (Fin 1 → SimEvent Unit)), A.WF ∧
    ∀ (sched : List Req → List Req), (∀ q, (sched q).Perm q) → ∀ junk : Nat → Nat → Fin 1 → ℂ,
      let s := run A sched 1 ([.setMC evs junk] ++ [.prepare])
      A.weight s.par = 1 ∧ average evs (fun x => incEvaluator A s x) = 1 / 2 := by
  refine ⟨twoAmps, oneEvent, twoAmps_wf, ?_⟩
  intro sched hs junk s
  have ht : ∀ op ∈ ([.setMC oneEvent junk] : List (Op ℝ Unit 1)), op.Tracked := by simp [Op.Tracked]
  obtain ⟨_, h2⟩ := inco_density twoAmps twoAmps_wf sched hs 1 _ ht oneEvent rfl
  refine ⟨rfl, ?_⟩
  rw [average_oneEvent]
  show incEvaluator twoAmps s () = 1 / 2
  rw [h2 (), average_oneEvent, twoAmps_total, twoAmps_inc]
  show (1 : ℝ) / _ * (1 + (1 : ℝ) * 1) = 1 / 2
  show (1 : ℝ) / ((1 + 1) * (1 + 1)) * (1 + (1 : ℝ) * 1) = 1 / 2
  norm_num

/-- The hypotheses of the partial theorem are met, and its condition holds, for the couplings 1
and 0. -/
example : average oneEvent (fun x => Complex.normSq (twoAmps.total 0 x)) ≠ 0 ∧
    average oneEvent (fun x => Complex.normSq (twoAmps.total 0 x) - incTotal twoAmps 0 x) = 0 := by
  rw [average_oneEvent, average_oneEvent, twoAmps_total, twoAmps_inc]
  norm_num

/-- C92: `norm()` is the average over the integration sample of the unnormalised density. -/
theorem inco_norm (A : Amps P X) (hA : A.WF) (sched : List Req → List Req)
    (hs : ∀ q, (sched q).Perm q) (p : P) (ops : List (Op P X W)) (hops : ∀ op ∈ ops, op.Tracked)
    (evs : List (Fin W → SimEvent X)) (he : lastSim none ops = some evs) :
    incNorm A (run A sched p (ops ++ [.prepare])) = average evs (incTotal A (lastPar p ops)) := by
  obtain ⟨r1, _, _⟩ := run_prepare A hA sched hs p ops hops
  unfold incNorm
  rw [foldl_range_sum, zero_add, average_congr evs (incTotal_list A (lastPar p ops)), average_list_sum, list_range_sum]
  apply Finset.sum_congr rfl
  intro i hi
  rw [norms_diag A hA sched hs p ops hops evs he i (Finset.mem_range.mp hi), r1 i, Complex.ofReal_re, mul_comm]
  rw [← average_mul]
  apply average_congr
  intro x
  rw [Complex.normSq_mul]

/-- C92: the fit fractions of an incoherent sum are the average densities of its elements
divided by the average of their sum; and they are followed by their sum, which is one. -/
theorem inco_fractions (A : Amps P X) (hA : A.WF) (sched : List Req → List Req)
    (hs : ∀ q, (sched q).Perm q) (p : P) (ops : List (Op P X W)) (hops : ∀ op ∈ ops, op.Tracked)
    (evs : List (Fin W → SimEvent X)) (he : lastSim none ops = some evs)
    (hn : average evs (incTotal A (lastPar p ops)) ≠ 0) :
    incFractions A (run A sched p (ops ++ [.prepare])) =
      ((List.range A.n).map fun i => average evs (fun x => Complex.normSq (A.coup i (lastPar p ops) * A.at (lastPar p ops) i x)) /
        average evs (incTotal A (lastPar p ops))) ++ [1] := by
  obtain ⟨r1, _, _⟩ := run_prepare A hA sched hs p ops hops
  set s := run A sched p (ops ++ [.prepare]) with hsdef
  set q := lastPar p ops with hq
  set F := fun i => average evs (fun x => Complex.normSq (A.coup i q * A.at q i x)) with hF
  have hterm : ∀ i, i < A.n → ∀ j, j < A.n →
      (s.me i).coefficient * (starRingEnd ℂ) (s.me j).coefficient * herm (incNormAt A s) i j =
        if i = j then ((F i : ℝ) : ℂ) else 0 := by
    intro i hi j hj
    by_cases hij : i = j
    · subst hij
      rw [if_pos rfl]
      unfold herm incNormAt
      rw [if_pos (Nat.le_refl _), if_pos rfl, norms_diag A hA sched hs p ops hops evs he i hi, r1 i,
        Complex.mul_conj, ← Complex.ofReal_mul, ← average_mul]
      congr 1
      apply average_congr
      intro x
      rw [Complex.normSq_mul]
    · rw [if_neg hij]
      unfold herm incNormAt
      have hji : ¬ j = i := fun h => hij h.symm
      simp [hij, hji]
  have hone : ∀ i, i < A.n → ffSum (fun i => (s.me i).coefficient) (incNormAt A s) [i] [i] = ((F i : ℝ) : ℂ) := by
    intro i hi
    rw [ffSum_eq]
    simp only [List.map_cons, List.map_nil, List.sum_cons, List.sum_nil, add_zero]
    rw [hterm i hi i hi, if_pos rfl]
  have hall : ffNorm (fun i => (s.me i).coefficient) (incNormAt A s) (List.range A.n) = average evs (incTotal A q) := by
    unfold ffNorm
    rw [ffSum_eq]
    have : ((List.range A.n).map fun i => ((List.range A.n).map fun j =>
        (s.me i).coefficient * (starRingEnd ℂ) (s.me j).coefficient * herm (incNormAt A s) i j).sum).sum =
        ((average evs (incTotal A q) : ℝ) : ℂ) := by
      rw [list_range_sum, average_congr evs (incTotal_list A q), average_list_sum, list_range_sum]
      push_cast
      apply Finset.sum_congr rfl
      intro i hi
      rw [list_range_sum, Finset.sum_eq_single i]
      · rw [hterm i (Finset.mem_range.mp hi) i (Finset.mem_range.mp hi), if_pos rfl]
      · intro j hj hji
        rw [hterm i (Finset.mem_range.mp hi) j (Finset.mem_range.mp hj), if_neg (fun h => hji h.symm)]
      · intro h; exact absurd hi h
    rw [this, Complex.ofReal_re]
  have hval : ∀ i, i < A.n → ffVal (fun i => (s.me i).coefficient) (incNormAt A s) (List.range A.n) [i] [i] =
      F i / average evs (incTotal A q) := by
    intro i hi
    unfold ffVal
    rw [hone i hi, hall, Complex.ofReal_re]
  have hfold : ∀ (l : List Nat), (∀ i ∈ l, i < A.n) → ∀ (a : List ℝ) (t : ℝ),
      (l.map fun i => ([i], [i])).foldl (fun (st : List ℝ × ℝ) c =>
        (st.1 ++ [ffVal (fun i => (s.me i).coefficient) (incNormAt A s) (List.range A.n) c.1 c.2],
          st.2 + ffVal (fun i => (s.me i).coefficient) (incNormAt A s) (List.range A.n) c.1 c.2)) (a, t) =
      (a ++ l.map (fun i => F i / average evs (incTotal A q)),
        t + (l.map fun i => F i / average evs (incTotal A q)).sum) := by
    intro l
    induction l with
    | nil => intro _ a t; simp
    | cons i l ih =>
      intro hl a t
      simp only [List.map_cons, List.foldl_cons, List.sum_cons]
      rw [hval i (hl i (by simp)), ih (fun j hj => hl j (by simp [hj]))]
      simp [add_assoc]
  unfold incFractions ffValues
  rw [hfold _ (fun i hi => List.mem_range.mp hi)]
  dsimp only
  rw [List.nil_append, zero_add]
  congr 2
  have hF' : (fun i => F i / average evs (incTotal A q)) = fun i => (average evs (incTotal A q))⁻¹ * F i := by
    funext i; rw [div_eq_inv_mul]
  rw [hF', List.sum_map_mul_left, hF]
  rw [← average_list_sum evs (fun i x => Complex.normSq (A.coup i q * A.at q i x)),
    ← average_congr evs (incTotal_list A q)]
  exact inv_mul_cancel₀ hn

example : average oneEvent (incTotal twoAmps 1) ≠ 0 := by
  rw [average_oneEvent, twoAmps_inc]; norm_num

/-- C92: the component projections add up to the unnormalised density: the density times the
normalisation in use, divided by the yield. -/
theorem inco_components (A : Amps P X) (hA : A.WF) (sched : List Req → List Req)
    (hs : ∀ q, (sched q).Perm q) (p : P) (ops : List (Op P X W)) (hops : ∀ op ∈ ops, op.Tracked) (x : X) :
    (incComponents A (run A sched p (ops ++ [.prepare])) x).sum = incTotal A (lastPar p ops) x := by
  obtain ⟨r1, r2, _⟩ := run_prepare A hA sched hs p ops hops
  unfold incComponents incTotal
  rw [list_range_sum]
  apply Finset.sum_congr rfl
  intro i hi
  rw [r1 i, r2 i (Finset.mem_range.mp hi)]
  rfl

end AmpGen.Likelihood
