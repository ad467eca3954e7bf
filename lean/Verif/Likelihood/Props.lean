import Verif.Likelihood.LemmasSum
/-
C93 - C95: the likelihood of a sum of densities, its minimum, and the constraints.
-/
namespace AmpGen.Likelihood

open Coherent

variable {P X : Type} {W : Nat}

/-! ### C93 -/

theorem comp_prob (c : Comp P X) (hA : c.A.WF) (sched : List Req → List Req)
    (hs : ∀ q, (sched q).Perm q) (p : P) (ops : List (Op P X W)) (hops : ∀ op ∈ ops, op.Tracked)
    (sim : List (Fin W → SimEvent X)) (he : lastSim none ops = some sim) (devs : List (Fin W → X))
    (hd : lastData none ops = some devs) (b : Nat) (e : Fin W → X) (l : Fin W) (hb : devs[b]? = some e) :
    c.prob (run c.A sched p (ops ++ [.prepare])) b l = c.density (lastPar p ops) sim (e l) := by
  unfold Comp.prob Comp.density Comp.raw
  split
  · exact (inco_density c.A hA sched hs p ops hops sim he).1 devs hd b e l hb
  · obtain ⟨h1, _, h3, _, h5⟩ := incremental_update_exact_partial c.A hA sched hs p ops hops
    unfold St.prob
    rw [h5, h3 sim he, h1 devs hd b e l hb]

/-- C93: after any history of changes of the parameters, of the data, of the integration samples
and of evaluations, `getVal` is minus twice the sum over the attached data of the weight
times the logarithm of the sum of the densities of all components, at the current
parameters and each normalised with its current integration sample. -/
theorem likelihood_value (comps : List (Comp P X)) (hA : ∀ c ∈ comps, c.A.WF) (sched : List Req → List Req)
    (hs : ∀ q, (sched q).Perm q) (p : P) (ops : List (SOp P X W)) (hok : ∀ op ∈ ops, op.ok)
    (evs : List (Fin W → SimEvent X)) (hd : sLastData none ops = some evs)
    (sims : Nat → List (Fin W → SimEvent X)) (hsim : ∀ k < comps.length, sLastSim k none ops = some (sims k)) :
    sumGetVal comps sched p ops = some (-2 * sumOver evs fun e =>
      e.weight * Real.log (mixture comps (sLastPar p ops) sims e.x)) := by
  unfold sumGetVal
  obtain ⟨h1, h2⟩ := sumRun_pdfs comps sched p (ops ++ [SOp.getVal])
  dsimp only
  have hd' : ∀ (l : List (SOp P X W)) (d : Option (List (Fin W → SimEvent X))),
      sLastData d (l ++ [.getVal]) = sLastData d l := by
    intro l
    induction l with
    | nil => intro d; rfl
    | cons a l ih => intro d; cases a <;> exact ih _
  rw [h1, h2, hd', hd, Option.map_some]
  congr 1
  apply sumVal_eq
  intro b e l hb
  unfold mixture
  rw [List.map_map]
  congr 1
  apply List.map_congr_left
  intro c hc
  obtain ⟨c, k⟩ := c
  have hk := List.mk_mem_zipIdx_iff_getElem?.mp hc
  have hklt : k < comps.length := (List.getElem?_eq_some_iff.mp hk).1
  have hmem : c ∈ comps := List.mem_of_getElem? hk
  show c.prob (run c.A sched p (opsFor k (ops ++ [.getVal]))) b l = c.density (sLastPar p ops) (sims k) (e l).x
  rw [opsFor_append, show opsFor k [(SOp.getVal : SOp P X W)] = [.prepare] from rfl, ← lastPar_opsFor k ops hok]
  apply comp_prob c (hA c hmem) sched hs p (opsFor k ops) (opsFor_tracked k ops hok) (sims k)
    (by rw [lastSim_opsFor k ops hok]; exact hsim k hklt) (evs.map fun b l => (b l).x)
    (by have := lastData_opsFor k ops hok none; rw [hd] at this; exact this) b (fun l => (e l).x) l
  rw [List.getElem?_map, hb]
  rfl

/-- A history to which the theorem applies. -/
example : ∃ ops : List (SOp ℝ Unit 1), (∀ op ∈ ops, op.ok) ∧ sLastData none ops = some oneEvent ∧
    (∀ k < 2, sLastSim k none ops = some oneEvent) ∧ sLastPar 1 ops = 3 := by
  refine ⟨[.setEvents oneEvent (fun _ _ _ => 7), .onPdf 0 (.setMC oneEvent fun _ _ _ => 7),
    .onPdf 1 (.setMC oneEvent fun _ _ _ => 7), .setPar 2, .getVal, .onPdf 1 (.prepareElement 0), .setPar 3], ?_, rfl, ?_, rfl⟩
  · intro op h
    simp only [List.mem_cons, List.not_mem_nil, or_false] at h
    rcases h with rfl | rfl | rfl | rfl | rfl | rfl | rfl <;> trivial
  · intro k hk
    rcases k with _ | _ | k
    · rfl
    · rfl
    · omega

/-- C93: with vector instructions the events are packed into blocks; the value is that of the
list of events if the unused lanes of the last block have weight zero. -/
theorem likelihood_packed_partial (hW : 0 < W) (comps : List (Comp P X)) (hA : ∀ c ∈ comps, c.A.WF)
    (sched : List Req → List Req) (hs : ∀ q, (sched q).Perm q) (p : P) (ops : List (SOp P X W))
    (hok : ∀ op ∈ ops, op.ok) (data : List (SimEvent X)) (pad : SimEvent X) (hpad : pad.weight = 0)
    (hd : sLastData none ops = some (pack W pad data))
    (sims : Nat → List (Fin W → SimEvent X)) (hsim : ∀ k < comps.length, sLastSim k none ops = some (sims k)) :
    sumGetVal comps sched p ops = some (nll (mixture comps (sLastPar p ops) sims) data) := by
  rw [likelihood_value comps hA sched hs p ops hok _ hd sims hsim]
  congr 1
  unfold nll
  rw [sumOver_pack hW pad data _ (by rw [hpad, zero_mul])]

/-- If the unused lanes repeat an event instead, that event is counted more than once. -/
theorem likelihood_packed_counterexample : ∃ (f : Unit → ℝ) (data : List (SimEvent Unit)) (pad : SimEvent Unit),
    data.getLast? = some pad ∧
    -2 * sumOver (pack 2 pad data) (fun e => e.weight * Real.log (f e.x)) = 2 * nll f data ∧ nll f data ≠ 0 := by
  refine ⟨fun _ => 2, [⟨(), 1, 1⟩], ⟨(), 1, 1⟩, rfl, ?_, ?_⟩
  · simp [pack, sumOver, nll]
    ring
  · simp [nll]; norm_num

/-- C93: the value for two data samples taken together is the sum of the values for each, and
the order of the events does not matter, whatever the histories by which the states were
reached. -/
theorem likelihood_additive (hW : 0 < W) (comps : List (Comp P X)) (hA : ∀ c ∈ comps, c.A.WF)
    (sched : List Req → List Req) (hs : ∀ q, (sched q).Perm q) (p₁ p₂ p : P) (ops₁ ops₂ ops : List (SOp P X W))
    (hok₁ : ∀ op ∈ ops₁, op.ok) (hok₂ : ∀ op ∈ ops₂, op.ok) (hok : ∀ op ∈ ops, op.ok)
    (d₁ d₂ d : List (SimEvent X)) (hperm : d.Perm (d₁ ++ d₂)) (pad₁ pad₂ pad : SimEvent X)
    (z₁ : pad₁.weight = 0) (z₂ : pad₂.weight = 0) (z : pad.weight = 0)
    (h₁ : sLastData none ops₁ = some (pack W pad₁ d₁)) (h₂ : sLastData none ops₂ = some (pack W pad₂ d₂))
    (h : sLastData none ops = some (pack W pad d))
    (hq₁ : sLastPar p₁ ops₁ = sLastPar p ops) (hq₂ : sLastPar p₂ ops₂ = sLastPar p ops)
    (sims : Nat → List (Fin W → SimEvent X))
    (s₁ : ∀ k < comps.length, sLastSim k none ops₁ = some (sims k))
    (s₂ : ∀ k < comps.length, sLastSim k none ops₂ = some (sims k))
    (s : ∀ k < comps.length, sLastSim k none ops = some (sims k)) :
    ∃ v₁ v₂, sumGetVal comps sched p₁ ops₁ = some v₁ ∧ sumGetVal comps sched p₂ ops₂ = some v₂ ∧
      sumGetVal comps sched p ops = some (v₁ + v₂) := by
  refine ⟨_, _, likelihood_packed_partial hW comps hA sched hs p₁ ops₁ hok₁ d₁ pad₁ z₁ h₁ sims s₁,
    likelihood_packed_partial hW comps hA sched hs p₂ ops₂ hok₂ d₂ pad₂ z₂ h₂ sims s₂, ?_⟩
  rw [likelihood_packed_partial hW comps hA sched hs p ops hok d pad z h sims s, hq₁, hq₂]
  congr 1
  unfold nll
  rw [(hperm.map _).sum_eq, List.map_append, List.sum_append]
  ring

/-! ### C94 -/

theorem gibbs_point {a b : ℝ} (ha : 0 < a) (hb : 0 < b) : a * Real.log b ≤ a * Real.log a + (b - a) := by
  have h := Real.log_le_sub_one_of_pos (div_pos hb ha)
  rw [Real.log_div hb.ne' ha.ne'] at h
  have h2 := mul_le_mul_of_nonneg_left h ha.le
  have h3 : a * (b / a - 1) = b - a := by field_simp
  rw [h3, mul_sub] at h2
  linarith

theorem sumOver_le (evs : List (Fin W → SimEvent X)) (f g : SimEvent X → ℝ)
    (h : ∀ b ∈ evs, ∀ l, f (b l) ≤ g (b l)) : sumOver evs f ≤ sumOver evs g := by
  have := sumOver_nonneg evs (fun e => g e + (-1) * f e) fun b hb l => by have := h b hb l; linarith
  rw [sumOver_add] at this
  have hm : sumOver evs (fun e => (-1) * f e) = - sumOver evs f := by
    unfold sumOver
    simp only [← Finset.mul_sum, List.sum_map_mul_left]
    ring
  rw [hm] at this
  linarith

theorem sumOver_average (sim : List (Fin W → SimEvent X)) (hN : sumOver sim SimEvent.w ≠ 0) (f : X → ℝ) :
    sumOver sim (fun e => e.w * f e.x) = sumOver sim SimEvent.w * average sim f := by
  unfold average
  rw [mul_div_cancel₀ _ hN]

/-- The densities of coherent sums average to the sum of the yields. -/
theorem mixture_average (comps : List (Comp P X)) (hcoh : ∀ c ∈ comps, c.inco = false)
    (sim : List (Fin W → SimEvent X)) (q : P)
    (hn : ∀ c ∈ comps, average sim (fun x => Complex.normSq (c.A.total q x)) ≠ 0) :
    average sim (mixture comps q fun _ => sim) = (comps.map fun c => c.A.weight q).sum := by
  have h1 : ∀ x, mixture comps q (fun _ => sim) x = (comps.map fun c => c.density q sim x).sum := by
    intro x
    unfold mixture
    conv_rhs => rw [← List.zipIdx_map_fst 0 comps]
    rw [List.map_map]
    rfl
  rw [average_congr sim h1, average_list_sum]
  congr 1
  apply List.map_congr_left
  intro c hc
  have h2 : ∀ x, c.density q sim x =
      c.A.weight q / average sim (fun y => Complex.normSq (c.A.total q y)) * Complex.normSq (c.A.total q x) := by
    intro x
    unfold Comp.density Comp.raw
    rw [hcoh c hc]
    rfl
  rw [average_congr sim h2, average_mul, div_mul_cancel₀ _ (hn c hc)]

/-- C94: a fit of coherent sums is consistent.  If the data are distributed exactly like the
model at `q₀` (the integration sample weighted with the density), then among all points of
parameter space with the same total yield none has a smaller `getVal` than `q₀`, whatever
happened before. -/
theorem fit_consistent (comps : List (Comp P X)) (hA : ∀ c ∈ comps, c.A.WF)
    (hcoh : ∀ c ∈ comps, c.inco = false) (sched : List Req → List Req) (hs : ∀ q, (sched q).Perm q) (p : P)
    (ops : List (SOp P X W)) (hok : ∀ op ∈ ops, op.ok) (sim : List (Fin W → SimEvent X))
    (hsim : ∀ k < comps.length, sLastSim k none ops = some sim)
    (hN : sumOver sim SimEvent.w ≠ 0) (hw : ∀ b ∈ sim, ∀ l, 0 ≤ (b l).w) (q₀ q : P)
    (hn₀ : ∀ c ∈ comps, average sim (fun x => Complex.normSq (c.A.total q₀ x)) ≠ 0)
    (hn : ∀ c ∈ comps, average sim (fun x => Complex.normSq (c.A.total q x)) ≠ 0)
    (hy : (comps.map fun c => c.A.weight q).sum = (comps.map fun c => c.A.weight q₀).sum)
    (hp₀ : ∀ b ∈ sim, ∀ l, 0 < mixture comps q₀ (fun _ => sim) (b l).x)
    (hp : ∀ b ∈ sim, ∀ l, 0 < mixture comps q (fun _ => sim) (b l).x) (junk : Nat → Nat → Fin W → ℂ) :
    let data := sim.map fun b l => (⟨(b l).x, (b l).w * mixture comps q₀ (fun _ => sim) (b l).x, 1⟩ : SimEvent X)
    ∃ v₀ v, sumGetVal comps sched p (ops ++ [.setEvents data junk, .setPar q₀]) = some v₀ ∧
      sumGetVal comps sched p (ops ++ [.setEvents data junk, .setPar q]) = some v ∧ v₀ ≤ v := by
  intro data
  have hval : ∀ r : P, sumGetVal comps sched p (ops ++ [.setEvents data junk, .setPar r]) =
      some (-2 * sumOver data fun e => e.weight * Real.log (mixture comps r (fun _ => sim) e.x)) := by
    intro r
    have hok' : ∀ op ∈ ops ++ [.setEvents data junk, .setPar r], op.ok := by
      intro op ho
      simp only [List.mem_append, List.mem_cons, List.not_mem_nil, or_false] at ho
      rcases ho with ho | rfl | rfl
      · exact hok op ho
      · trivial
      · trivial
    have hl1 : ∀ (l : List (SOp P X W)) (d : Option (List (Fin W → SimEvent X))),
        sLastData d (l ++ [.setEvents data junk, .setPar r]) = some data := by
      intro l
      induction l with
      | nil => intro d; rfl
      | cons a l ih => intro d; cases a <;> exact ih _
    have hl2 : ∀ (l : List (SOp P X W)) (t : P), sLastPar t (l ++ [.setEvents data junk, .setPar r]) = r := by
      intro l
      induction l with
      | nil => intro d; rfl
      | cons a l ih => intro d; cases a <;> exact ih _
    have hl3 : ∀ (k : Nat) (l : List (SOp P X W)) (d : Option (List (Fin W → SimEvent X))),
        sLastSim k d (l ++ [.setEvents data junk, .setPar r]) = sLastSim k d l := by
      intro k l
      induction l with
      | nil => intro d; rfl
      | cons a l ih =>
        intro d
        cases a with
        | onPdf j o => cases o <;> exact ih _
        | _ => exact ih _
    rw [likelihood_value comps hA sched hs p _ hok' data (hl1 ops none) (fun _ => sim)
      (fun k hk => (hl3 k ops none).trans (hsim k hk)), hl2]
  refine ⟨_, _, hval q₀, hval q, ?_⟩
  have hdata : ∀ g : SimEvent X → ℝ, sumOver data g =
      sumOver sim fun e => g ⟨e.x, e.w * mixture comps q₀ (fun _ => sim) e.x, 1⟩ := by
    intro g
    show sumOver (sim.map _) g = _
    unfold sumOver
    rw [List.map_map]
    rfl
  have key : sumOver data (fun e => e.weight * Real.log (mixture comps q (fun _ => sim) e.x)) ≤
      sumOver data (fun e => e.weight * Real.log (mixture comps q₀ (fun _ => sim) e.x)) := by
    rw [hdata, hdata]
    dsimp only
    have hle := sumOver_le sim
      (fun e => e.w * mixture comps q₀ (fun _ => sim) e.x * Real.log (mixture comps q (fun _ => sim) e.x) +
        e.w * mixture comps q₀ (fun _ => sim) e.x)
      (fun e => e.w * mixture comps q₀ (fun _ => sim) e.x * Real.log (mixture comps q₀ (fun _ => sim) e.x) +
        e.w * mixture comps q (fun _ => sim) e.x)
      (by
        intro b hb l
        have g := mul_le_mul_of_nonneg_left (gibbs_point (hp₀ b hb l) (hp b hb l)) (hw b hb l)
        nlinarith [g])
    rw [sumOver_add, sumOver_add, sumOver_average sim hN, sumOver_average sim hN,
      mixture_average comps hcoh sim q₀ hn₀, mixture_average comps hcoh sim q hn, hy] at hle
    linarith
  linarith

/-- The hypotheses are met by the two-amplitude model with couplings 1 and 2. -/
example : average oneEvent (fun x => Complex.normSq (twoAmps.total 1 x)) ≠ 0 ∧
    average oneEvent (fun x => Complex.normSq (twoAmps.total 2 x)) ≠ 0 ∧ sumOver oneEvent SimEvent.w ≠ 0 ∧
    0 < mixture [⟨twoAmps, false⟩] 1 (fun _ => oneEvent) () ∧
    0 < mixture [⟨twoAmps, false⟩] 2 (fun _ => oneEvent) () := by
  simp only [average_oneEvent, twoAmps_total, mixture, Comp.density, Comp.raw, List.zipIdx, List.map_cons,
    List.map_nil, List.sum_cons, List.sum_nil]
  refine ⟨by norm_num, by norm_num, ?_, ?_, ?_⟩
  · simp [oneEvent, sumOver, SimEvent.w]
  · simp [twoAmps]
  · simp [twoAmps]; norm_num

/-- An incoherent sum is not fitted consistently: data distributed like the model at coupling 1
have a smaller `getVal` at coupling -1/2, with the same yield, because the normalisation in
use contains the interference although the density does not. -/
theorem fit_incoherent_counterexample : ∃ (comps : List (Comp ℝ Unit)) (sim : List (Fin 1 → SimEvent Unit)),
    (∀ c ∈ comps, c.A.WF) ∧ (∀ c ∈ comps, ∀ q, c.A.weight q = 1) ∧
    (∀ c ∈ comps, average sim (fun x => Complex.normSq (c.A.total 1 x)) ≠ 0 ∧
      average sim (fun x => Complex.normSq (c.A.total (-1/2) x)) ≠ 0) ∧
    ∀ (sched : List Req → List Req), (∀ q, (sched q).Perm q) → ∀ junk : Nat → Nat → Fin 1 → ℂ,
      let data := sim.map fun b l => (⟨(b l).x, (b l).w * mixture comps 1 (fun _ => sim) (b l).x, 1⟩ : SimEvent Unit)
      ∃ v₀ v, sumGetVal comps sched 1 [.onPdf 0 (.setMC sim junk), .setEvents data junk] = some v₀ ∧
        sumGetVal comps sched 1 [.onPdf 0 (.setMC sim junk), .setEvents data junk, .setPar (-1/2)] = some v ∧ v < v₀ := by
  have hA : ∀ c ∈ ([⟨twoAmps, true⟩] : List (Comp ℝ Unit)), c.A.WF := by
    intro c hc
    rw [List.mem_singleton] at hc
    subst hc
    exact twoAmps_wf
  refine ⟨[⟨twoAmps, true⟩], oneEvent, hA, ?_, ?_, ?_⟩
  · intro c hc q
    rw [List.mem_singleton] at hc
    subst hc
    rfl
  · intro c hc
    rw [List.mem_singleton] at hc
    subst hc
    simp only [average_oneEvent, twoAmps_total]
    norm_num
  · intro sched hs junk data
    have hm : ∀ q x, mixture [⟨twoAmps, true⟩] q (fun _ => oneEvent) x = (1 + q * q) / ((1 + q) * (1 + q)) := by
      intro q x
      simp only [average_oneEvent, twoAmps_total, mixture, Comp.density, Comp.raw, List.zipIdx, List.map_cons,
        List.map_nil, List.sum_cons, List.sum_nil, if_true, twoAmps_inc, add_zero]
      show (1 : ℝ) / _ * _ = _
      ring
    have hsum : ∀ g : SimEvent Unit → ℝ, sumOver data g = g ⟨(), 1 * ((1 + 1 * 1) / ((1 + 1) * (1 + 1))), 1⟩ := by
      intro g
      have : data = [fun _ => ⟨(), 1 * ((1 + 1 * 1) / ((1 + 1) * (1 + 1))), 1⟩] := by
        show oneEvent.map _ = _
        simp only [hm]
        simp [oneEvent, SimEvent.w]
      rw [this]
      simp [sumOver]
    refine ⟨_, _, likelihood_value _ hA sched hs 1 _ ?_ data rfl (fun _ => oneEvent) ?_,
      likelihood_value _ hA sched hs 1 _ ?_ data rfl (fun _ => oneEvent) ?_, ?_⟩
    · intro op h
      simp only [List.mem_cons, List.not_mem_nil, or_false] at h
      rcases h with rfl | rfl <;> trivial
    · intro k hk
      have : k = 0 := by simpa using hk
      subst this
      rfl
    · intro op h
      simp only [List.mem_cons, List.not_mem_nil, or_false] at h
      rcases h with rfl | rfl | rfl <;> trivial
    · intro k hk
      have : k = 0 := by simpa using hk
      subst this
      rfl
    · rw [hsum, hsum]
      dsimp only [sLastPar]
      rw [hm, hm]
      have hlog : Real.log ((1 + (1 : ℝ) * 1) / ((1 + 1) * (1 + 1))) < Real.log ((1 + (-1/2 : ℝ) * (-1/2)) / ((1 + (-1/2)) * (1 + (-1/2)))) :=
        Real.log_lt_log (by norm_num) (by norm_num)
      nlinarith [hlog]

/-! ### C95 -/

/-- C95: the function that is minimised is the fitted function minus twice the sum of the
constraint terms, up to the offset. -/
theorem fcn_value (LL : ℝ) (terms : List ℝ) (zero : ℝ) : fcn LL terms zero = LL - 2 * terms.sum - zero := by
  unfold fcn
  congr 1
  induction terms generalizing LL with
  | nil => simp
  | cons t ts ih => rw [List.foldl_cons, ih, List.sum_cons]; ring

/-- C95 for Gaussian constraints: each adds the squared deviation in units of its uncertainty,
so the minimised function is never decreased, and is unchanged exactly when every
constrained parameter has its central value. -/
theorem gaussian_constraints_partial (LL zero : ℝ) (cs : List (ℝ × ℝ × ℝ)) (h : ∀ c ∈ cs, c.2.2 ≠ 0) :
    let v := fcn LL (cs.map fun c => gaussian c.1 c.2.1 c.2.2) zero
    v = LL - zero + (cs.map fun c => ((c.1 - c.2.1) / c.2.2) ^ 2).sum ∧ LL - zero ≤ v ∧
    (v = LL - zero ↔ ∀ c ∈ cs, c.1 = c.2.1) := by
  intro v
  have h1 : v = LL - zero + (cs.map fun c => ((c.1 - c.2.1) / c.2.2) ^ 2).sum := by
    show fcn LL _ zero = _
    rw [fcn_value]
    have : -2 * (cs.map fun c => gaussian c.1 c.2.1 c.2.2).sum = (cs.map fun c => ((c.1 - c.2.1) / c.2.2) ^ 2).sum := by
      rw [← List.sum_map_mul_left]
      congr 1
      apply List.map_congr_left
      intro c hc
      have := h c hc
      unfold gaussian
      field_simp
    linarith
  have hnn : ∀ x ∈ cs.map fun c => ((c.1 - c.2.1) / c.2.2) ^ 2, 0 ≤ x := by
    intro x hx
    rw [List.mem_map] at hx
    obtain ⟨c, _, rfl⟩ := hx
    positivity
  refine ⟨h1, ?_, ?_⟩
  · rw [h1]
    linarith [List.sum_nonneg hnn]
  · rw [h1]
    constructor
    · intro he c hc
      have hz : (cs.map fun c => ((c.1 - c.2.1) / c.2.2) ^ 2).sum = 0 := by linarith
      have hle := List.single_le_sum hnn _ (List.mem_map_of_mem hc)
      rw [hz] at hle
      have h0 : ((c.1 - c.2.1) / c.2.2) ^ 2 = 0 := le_antisymm hle (by positivity)
      rw [sq_eq_zero_iff, div_eq_zero_iff] at h0
      rcases h0 with h0 | h0
      · linarith
      · exact absurd h0 (h c hc)
    · intro hall
      have : (cs.map fun c => ((c.1 - c.2.1) / c.2.2) ^ 2) = cs.map fun _ => (0 : ℝ) := by
        apply List.map_congr_left
        intro c hc
        rw [hall c hc]
        simp
      rw [this]
      simp

/-- The constraint on a ratio of partial widths has the opposite sign: with a positive weight the
minimised function falls without bound as the ratio moves away from its target. -/
theorem partial_width_sign_counterexample (LL zero weight target : ℝ) (hw : 0 < weight) (r r' : ℝ)
    (h : |r - target| < |r' - target|) :
    fcn LL [partialWidth weight r' target] zero < fcn LL [partialWidth weight r target] zero := by
  rw [fcn_value, fcn_value]
  simp only [List.sum_cons, List.sum_nil, add_zero, partialWidth]
  have := sq_lt_sq.mpr h
  nlinarith [mul_lt_mul_of_pos_left this hw]

example : |(0.5 : ℝ) - 0.5| < |(0.9 : ℝ) - 0.5| := by norm_num [abs_of_pos]

/-- What the sums in the constraint on partial widths are: the mean of the squared modulus of the
sum of the selected amplitudes and of the sum of their squared moduli, because the entries
below the diagonal of the matrix of integrals are zero.  Missing for the documented partial
width: the second half of the interference. -/
theorem width_sum_partial (A : Amps P X) (hA : A.WF) (sched : List Req → List Req)
    (hs : ∀ q, (sched q).Perm q) (p : P) (ops : List (Op P X W)) (hops : ∀ op ∈ ops, op.Tracked)
    (evs : List (Fin W → SimEvent X)) (he : lastSim none ops = some evs) (g : List Nat) (hg : ∀ i ∈ g, i < A.n)
    (hnd : g.Nodup) :
    let s := run A sched p (ops ++ [.prepare])
    let q := lastPar p ops
    (widthSum (fun i => (s.me i).coefficient) (fun i j => s.norms (i * A.n + j)) g).re =
      (average evs (fun x => Complex.normSq (g.map fun i => A.coup i q * A.at q i x).sum) +
        average evs (fun x => (g.map fun i => Complex.normSq (A.coup i q * A.at q i x)).sum)) / 2 := by
  intro s q
  obtain ⟨_, h2, _, _, _⟩ := incremental_update_exact_partial A hA sched hs p ops hops
  obtain ⟨r1, _, _⟩ := run_prepare A hA sched hs p ops hops
  have hlow : ∀ i j, j < i → i < A.n → s.norms (i * A.n + j) = 0 := fun i j hj hi =>
    norms_lower A hA sched hs p (ops ++ [.prepare]) (by
      intro op ho
      simp only [List.mem_append, List.mem_cons, List.not_mem_nil, or_false] at ho
      rcases ho with ho | rfl
      · exact hops op ho
      · trivial) i j hj hi
  set coef := fun i => (s.me i).coefficient with hcoef
  set N := fun i j => s.norms (i * A.n + j) with hNdef
  set D := fun i => average evs (fun x => Complex.normSq (A.coup i q * A.at q i x)) with hD
  -- the full sum
  have hfull := ffSum_self_average evs (fun i => A.coup i q) (A.at q) N A.n (fun i j hij hj => h2 evs he i j hij hj) g hg
  have hdiag : ∀ i ∈ g, (coef i * (starRingEnd ℂ) (coef i) * N i i).re = D i := by
    intro i hi
    rw [hNdef, hcoef]
    dsimp only
    rw [norms_diag A hA sched hs p ops hops evs he i (hg i hi), r1 i, Complex.mul_conj, ← Complex.ofReal_mul,
      Complex.ofReal_re, ← average_mul]
    apply average_congr
    intro x
    rw [Complex.normSq_mul]
  have hterm : ∀ i ∈ g, ∀ j ∈ g,
      (coef i * (starRingEnd ℂ) (coef j) * N i j).re + (coef j * (starRingEnd ℂ) (coef i) * N j i).re =
      (coef i * (starRingEnd ℂ) (coef j) * herm N i j).re + (if i = j then D i else 0) := by
    intro i hi j hj
    unfold herm
    rcases Nat.lt_trichotomy i j with hij | hij | hij
    · have hz : N j i = 0 := hlow j i hij (hg j hj)
      rw [hz, if_pos (show j ≥ i by omega), if_neg (by omega)]
      simp
    · subst hij
      rw [if_pos (Nat.le_refl _), if_pos rfl, hdiag i hi]
    · have hz : N i j = 0 := hlow i j hij (hg i hi)
      rw [hz, if_neg (show ¬ j ≥ i by omega), if_neg (by omega)]
      have : (coef j * (starRingEnd ℂ) (coef i) * N j i).re =
          ((starRingEnd ℂ) (coef j * (starRingEnd ℂ) (coef i) * N j i)).re := (Complex.conj_re _).symm
      rw [this, map_mul, map_mul, Complex.conj_conj]
      simp only [mul_zero, Complex.zero_re, zero_add, add_zero]
      congr 1
      ring
  have hW : widthSum coef N g = (g.map fun i => (g.map fun j => coef i * (starRingEnd ℂ) (coef j) * N i j).sum).sum :=
    (foldl_double (fun i j => coef i * (starRingEnd ℂ) (coef j) * N i j) g g 0).trans (zero_add _)
  have hre : ∀ l : List ℂ, l.sum.re = (l.map Complex.re).sum := by
    intro l
    induction l with
    | nil => simp
    | cons a l ih => simp [ih]
  have hcoef' : coef = fun i => A.coup i q := funext r1
  have hF : (ffSum coef N g g).re =
      average evs (fun x => Complex.normSq (g.map fun i => A.coup i q * A.at q i x).sum) := by
    rw [hcoef']
    exact hfull
  -- sums over the finite set
  have hset : ∀ f : Nat → ℝ, (g.map f).sum = ∑ i ∈ g.toFinset, f i := fun f => (List.sum_toFinset f hnd).symm
  have hWr : (widthSum coef N g).re = ∑ i ∈ g.toFinset, ∑ j ∈ g.toFinset, (coef i * (starRingEnd ℂ) (coef j) * N i j).re := by
    rw [hW, hre, List.map_map, hset]
    apply Finset.sum_congr rfl
    intro i _
    show Complex.re (List.sum _) = _
    rw [hre, List.map_map, hset]
    rfl
  have hFr : (ffSum coef N g g).re = ∑ i ∈ g.toFinset, ∑ j ∈ g.toFinset, (coef i * (starRingEnd ℂ) (coef j) * herm N i j).re := by
    rw [ffSum_eq, hre, List.map_map, hset]
    apply Finset.sum_congr rfl
    intro i _
    show Complex.re (List.sum _) = _
    rw [hre, List.map_map, hset]
    rfl
  have htwo : (widthSum coef N g).re + (widthSum coef N g).re = (ffSum coef N g g).re + ∑ i ∈ g.toFinset, D i := by
    have hswap : (widthSum coef N g).re =
        ∑ i ∈ g.toFinset, ∑ j ∈ g.toFinset, (coef j * (starRingEnd ℂ) (coef i) * N j i).re := by
      rw [hWr, Finset.sum_comm]
    conv_lhs => arg 1; rw [hWr]
    rw [hswap, hFr, ← Finset.sum_add_distrib, ← Finset.sum_add_distrib]
    apply Finset.sum_congr rfl
    intro i hi
    rw [← Finset.sum_add_distrib]
    have hi' : i ∈ g := List.mem_toFinset.mp hi
    rw [Finset.sum_congr rfl fun j hj => hterm i hi' j (List.mem_toFinset.mp hj), Finset.sum_add_distrib,
      Finset.sum_ite_eq, if_pos hi]
  rw [average_list_sum, hset, ← hF]
  linarith

/-- The documented ratio of partial widths fails: with two equal amplitudes and equal couplings
the width of both together is four times that of one, but the constraint finds three. -/
theorem width_ratio_counterexample : ∃ (A : Amps ℝ Unit) (evs : List (Fin 1 → SimEvent Unit)), A.WF ∧
    ∀ (sched : List Req → List Req), (∀ q, (sched q).Perm q) → ∀ junk : Nat → Nat → Fin 1 → ℂ,
      widthRatio A (run A sched 1 ([.setMC evs junk] ++ [.prepare])) [0, 1] [0] = 3 ∧
      average evs (fun x => Complex.normSq ([0, 1].map fun i => A.coup i 1 * A.at 1 i x).sum) /
        average evs (fun x => Complex.normSq ([0].map fun i => A.coup i 1 * A.at 1 i x).sum) = 4 := by
  refine ⟨twoAmps, oneEvent, twoAmps_wf, ?_⟩
  intro sched hs junk
  have ht : ∀ op ∈ ([.setMC oneEvent junk] : List (Op ℝ Unit 1)), op.Tracked := by simp [Op.Tracked]
  have h1 := width_sum_partial twoAmps twoAmps_wf sched hs 1 _ ht oneEvent rfl [0, 1]
    (by intro i hi; show i < 2; simp at hi; omega) (by decide)
  have h2 := width_sum_partial twoAmps twoAmps_wf sched hs 1 _ ht oneEvent rfl [0]
    (by intro i hi; show i < 2; simp at hi; omega) (by decide)
  have hone : (1 : ℂ) + 1 = ((2 : ℝ) : ℂ) := by norm_num
  constructor
  · unfold widthRatio
    rw [h1, h2]
    simp only [average_oneEvent]
    simp [twoAmps, Amps.at, lastPar]
    rw [hone, Complex.normSq_ofReal]
    norm_num
  · simp only [average_oneEvent]
    simp [twoAmps, Amps.at]
    rw [hone, Complex.normSq_ofReal]
    norm_num

/-- The LASSO penalty has the opposite sign as well: with a positive strength the minimised
function is lowest for large couplings. -/
theorem lasso_sign_counterexample : ∃ (A : Amps ℝ Unit) (evs : List (Fin 1 → SimEvent Unit)), A.WF ∧
    ∀ (sched : List Req → List Req), (∀ q, (sched q).Perm q) → ∀ junk : Nat → Nat → Fin 1 → ℂ,
    ∀ (LL zero lambda : ℝ) (g g' : ℝ), 0 < lambda → |g| < |g'| →
      fcn LL [lasso A (run A sched g' ([.setMC evs junk] ++ [.prepare])) lambda] zero <
        fcn LL [lasso A (run A sched g ([.setMC evs junk] ++ [.prepare])) lambda] zero := by
  refine ⟨twoAmps, oneEvent, twoAmps_wf, ?_⟩
  intro sched hs junk LL zero lambda g g' hl hg
  have ht : ∀ op ∈ ([.setMC oneEvent junk] : List (Op ℝ Unit 1)), op.Tracked := by simp [Op.Tracked]
  have hv : ∀ r : ℝ, lasso twoAmps (run twoAmps sched r ([.setMC oneEvent junk] ++ [.prepare])) lambda =
      lambda * (1 + |r|) := by
    intro r
    obtain ⟨r1, _, _⟩ := run_prepare twoAmps twoAmps_wf sched hs r _ ht
    have d0 := norms_diag twoAmps twoAmps_wf sched hs r _ ht oneEvent rfl 0 (by decide)
    have d1 := norms_diag twoAmps twoAmps_wf sched hs r _ ht oneEvent rfl 1 (by decide)
    unfold lasso
    rw [foldl_range_sum, zero_add, show twoAmps.n = 2 from rfl, Finset.sum_range_succ, Finset.sum_range_succ,
      Finset.sum_range_zero, zero_add]
    rw [show twoAmps.n = 2 from rfl] at d0 d1
    rw [d0, d1, r1 0, r1 1, average_oneEvent, average_oneEvent]
    simp [twoAmps, Amps.at, lastPar, Complex.normSq_ofReal, Real.sqrt_mul_self_eq_abs]
  rw [hv g, hv g', fcn_value, fcn_value]
  simp only [List.sum_cons, List.sum_nil, add_zero]
  nlinarith [mul_lt_mul_of_pos_left hg hl]

end AmpGen.Likelihood
