import Verif.Coherent.LemmasSum
import Mathlib.Algebra.BigOperators.Fin
import Mathlib.Tactic.NormNum
/-
C09 - C13: normalisation, incremental updates, queued integrals, fit fractions and
component projections of a coherent sum.
-/
namespace AmpGen.Coherent

variable {P X : Type} {W : Nat}

/-! ### C11 -/

/-- C11: whatever integrals are queued on an idle integrator, in whatever order the parallel
loop writes its results, after a flush every destination holds its integral, no other
memory has changed, and the integrator is idle again. -/
theorem queued_integrals_evaluated (sched : List Req → List Req) (hs : ∀ q, (sched q).Perm q)
    (I : Integrator X W) (hI : I.queue = []) (mem : Nat → ℂ) (rs : List Req) (hc : Consistent rs) :
    ∃ mem', ((I.queueAll sched mem rs).1.flush sched (I.queueAll sched mem rs).2) = (I, mem') ∧
      (∀ r ∈ rs, mem' r.dest = I.integral r.i r.j) ∧
      (∀ d, (∀ r ∈ rs, r.dest ≠ d) → mem' d = mem d) :=
  queue_flush_all sched hs I hI mem rs hc

/-- C11: what the integral is: the weighted average over the sample of the product of the two
cached fields. -/
theorem integral_is_average (evs : List (Fin W → SimEvent X)) (junk cache : Nat → Nat → Fin W → ℂ)
    (f g : X → ℂ) (i j : Nat)
    (hi : ∀ b e l, evs[b]? = some e → cache i b l = f (e l).x)
    (hj : ∀ b e l, evs[b]? = some e → cache j b l = g (e l).x) :
    ({ Integrator.make evs junk with cache := cache } : Integrator X W).integral i j =
      averageC evs fun x => f x * (starRingEnd ℂ) (g x) := by
  have hr : IReady ({ Integrator.make evs junk with cache := cache } : Integrator X W) := make_ready evs junk
  have he : ({ Integrator.make evs junk with cache := cache } : Integrator X W).events = some evs := rfl
  exact integral_fields hr he hi hj

/-- The hypotheses are met by, for instance, eleven requests with distinct destinations, which
do not fill the last batch. -/
example : Consistent ((List.range 11).map fun k => (⟨k, k, k + 1⟩ : Req)) := by
  intro r hr r' hr' h
  simp only [List.mem_map, List.mem_range] at hr hr'
  obtain ⟨a, _, rfl⟩ := hr
  obtain ⟨b, _, rfl⟩ := hr'
  simp only at h
  subst h
  exact ⟨rfl, rfl⟩

/-! ### C10 -/

/-- C10: after any history of parameter changes, attaching and detaching of samples, element
updates and calls of `prepare`, and a final `prepare`: amplitudes of data events, the
matrix of integrals and the normalisation are those computed from scratch from the current
parameters and the samples currently attached. -/
theorem incremental_update_exact_partial (A : Amps P X) (hA : A.WF) (sched : List Req → List Req)
    (hs : ∀ q, (sched q).Perm q) (p : P) (ops : List (Op P X W)) (hops : ∀ op ∈ ops, op.Tracked) :
    let s := run A sched p (ops ++ [.prepare])
    let q := lastPar p ops
    (∀ evs, lastData none ops = some evs → ∀ b e l, evs[b]? = some e → s.getVal A b l = A.total q (e l)) ∧
    (∀ evs, lastSim none ops = some evs → ∀ i j, i ≤ j → j < A.n →
      s.norms (i * A.n + j) = averageC evs fun x => A.at q i x * (starRingEnd ℂ) (A.at q j x)) ∧
    (∀ evs, lastSim none ops = some evs → s.norm = average evs fun x => Complex.normSq (A.total q x)) ∧
    (∀ x, s.evalAmp A x = A.total q x) ∧
    s.par = q := by
  intro s q
  obtain ⟨hinv, h1, h2, h3⟩ := run_spec A hA sched hs ops hops (St.init A p : St P X W) (inv_init A hA p)
  set s0 := ops.foldl (fun s op => s.apply A sched op) (St.init A p : St P X W) with hs0
  have hs' : s = s0.prepare A sched := by
    show run A sched p (ops ++ [.prepare]) = _
    unfold run
    rw [List.foldl_append, ← hs0]
    rfl
  have hp := prepare_spec A hA sched hs hinv
  rw [← hs'] at hp
  have hpar : s0.par = q := h1
  have hpar' : ∀ i, A.ext i s0.par = A.ext i q := fun i => by rw [hpar]
  have hcoef : ∀ i, (s.me i).coefficient = A.coup i q := fun i => by rw [hp.coef i, hpar]
  have hnorms : ∀ evs, lastSim none ops = some evs → ∀ i j, i ≤ j → j < A.n →
      s.norms (i * A.n + j) = averageC evs fun x => A.at q i x * (starRingEnd ℂ) (A.at q j x) := by
    intro evs he i j hij hj
    have := hp.ncache i j hij hj evs (by rw [hp.ievents, h3]; exact he)
    rw [hpar' i, hpar' j] at this
    exact this
  refine ⟨?_, hnorms, ?_, ?_, ?_⟩
  · intro evs he b e l hb
    unfold St.getVal Amps.total
    rw [foldl_range_sum, zero_add]
    apply Finset.sum_congr rfl
    intro i hi
    have hi' := Finset.mem_range.mp hi
    rw [hcoef i, hp.dcache i hi' evs (by rw [hp.sdata, h2]; exact he) b e l hb, hpar' i]
    rfl
  · intro evs he
    rw [hp.norm (by rw [hp.ievents, h3]; exact (congrArg Option.isSome he).trans rfl), normOf_eq]
    rw [show (fun i => A.coup i s0.par) = fun i => A.coup i q from by rw [hpar]]
    rw [ffSum_self_average evs (fun i => A.coup i q) (A.at q) _ A.n (hnorms evs he) (List.range A.n)
      (fun i hi => List.mem_range.mp hi)]
    unfold average Amps.total
    simp only [list_range_sum]
  · intro x
    unfold St.evalAmp Amps.total
    rw [foldl_range_sum, zero_add]
    apply Finset.sum_congr rfl
    intro i hi
    rw [hcoef i, hp.buffer i (Finset.mem_range.mp hi), hpar' i]
    rfl
  · rw [hp.par, hpar]

/-- A history to which the theorem applies: attach both samples, prepare, change a parameter,
prepare a single element, swap the data. -/
example : ∀ op ∈ ([.setEvents [fun _ => 1] (fun _ _ _ => 7), .setMC [fun _ => ⟨1, 1, 1⟩, fun _ => ⟨2, 1, 1⟩] (fun _ _ _ => 7),
    .prepare, .setPar 3, .prepareElement 0, .setEvents [fun _ => 5] (fun _ _ _ => 7), .reset false] :
    List (Op ℝ ℝ 1)), op.Tracked := by
  simp [Op.Tracked]

/-- A well formed sum of two amplitudes, one of which has a free parameter in its shape. -/
def demoAmps : Amps ℝ ℝ where
  n := 2
  name := fun i => if i = 0 then "a" else "b"
  ext := fun i p => if i = 0 then [p] else []
  amp := fun i b x => if i = 0 then ((b.headD 0 * x : ℝ) : ℂ) else 1
  coup := fun _ _ => 1
  weight := fun _ => 1

theorem demoAmps_wf : demoAmps.WF where
  names := by decide
  slots := fun i p q => by simp only [demoAmps]; split <;> rfl

/-- C10: two histories ending in the same parameters and samples give the same results, in
particular the same as a fresh sum. -/
theorem history_independent_partial (A : Amps P X) (hA : A.WF) (sched sched' : List Req → List Req)
    (hs : ∀ q, (sched q).Perm q) (hs' : ∀ q, (sched' q).Perm q) (p p' : P) (ops ops' : List (Op P X W))
    (hops : ∀ op ∈ ops, op.Tracked) (hops' : ∀ op ∈ ops', op.Tracked)
    (hq : lastPar p ops = lastPar p' ops') (hd : lastData none ops = lastData none ops')
    (hm : lastSim none ops = lastSim none ops') (evs : List (Fin W → SimEvent X)) (hsim : lastSim none ops = some evs)
    (devs : List (Fin W → X)) (hdata : lastData none ops = some devs) (b : Nat) (hb : b < devs.length) (l : Fin W) :
    (run A sched p (ops ++ [.prepare])).prob A b l = (run A sched' p' (ops' ++ [.prepare])).prob A b l := by
  obtain ⟨a1, _, a3, _, a5⟩ := incremental_update_exact_partial A hA sched hs p ops hops
  obtain ⟨b1, _, b3, _, b5⟩ := incremental_update_exact_partial A hA sched' hs' p' ops' hops'
  have hb' := List.getElem?_eq_getElem hb
  unfold St.prob
  rw [a5, b5, a3 evs hsim, b3 evs (by rw [← hm]; exact hsim), a1 devs hdata b _ l hb',
    b1 devs (by rw [← hd]; exact hdata) b _ l hb', hq]

/-- Two amplitudes with the same name. -/
def dupAmps : Amps Unit Unit := ⟨2, fun _ => "a", fun _ _ => [], fun _ _ _ => 1, fun _ _ => 1, fun _ => 1⟩

theorem dupAmps_field (i : Nat) : dupAmps.field i = 0 := by
  show List.idxOf "a" (registered ["a", "a"]) = 0
  decide

/-- The claim needs distinct names: two amplitudes with the same name share a field of the
cache, and the other one is read although it is never written. -/
theorem duplicate_names_counterexample :
    ∃ (A : Amps Unit Unit), (∀ i p q, (A.ext i p).length = (A.ext i q).length) ∧ A.total () () = 2 ∧
      ∀ (junk : Nat → Nat → Fin 1 → ℂ) (sched : List Req → List Req),
        (run A sched () [.setEvents [fun _ => ()] junk, .prepare]).getVal A 0 0 = 1 + junk 1 0 0 := by
  refine ⟨dupAmps, fun _ _ _ => rfl, ?_, ?_⟩
  · simp only [Amps.total, Amps.at, dupAmps, Finset.sum_range_succ, Finset.sum_range_zero]; norm_num
  · intro junk sched
    have h2 : dupAmps.n = 2 := rfl
    simp [run, St.apply, St.setEvents, St.reset, St.prepare, St.transferParameters, List.range_succ,
      St.prepareOne, St.init, ME.prepare, St.updateCache, St.updateInteg, dupAmps_field, St.getVal, h2]
    simp [dupAmps]

/-- One amplitude, equal to its parameter. -/
def oneAmps : Amps ℝ Unit :=
  ⟨1, fun _ => "a", fun _ p => [p], fun _ b _ => ((b.headD 0 : ℝ) : ℂ), fun _ _ => 1, fun _ => 1⟩

theorem oneAmps_field (i : Nat) : oneAmps.field i = 0 := by
  show List.idxOf "a" (registered ["a"]) = 0
  decide

/-- The claim needs changes to go through the tracked calls: overwriting an external buffer
with `setExternals` does not mark the element as changed, and a stale amplitude is used. -/
theorem set_externals_counterexample :
    ∃ (A : Amps ℝ Unit), A.WF ∧ ∀ (junk : Nat → Nat → Fin 1 → ℂ) (sched : List Req → List Req),
      let s := run A sched 1 [.setEvents [fun _ => ()] junk, .prepare, .setPar 2, .setExternals 0 [2], .prepare]
      s.par = 2 ∧ A.total 2 () = 2 ∧ s.getVal A 0 0 = 1 := by
  refine ⟨oneAmps, ⟨by decide, fun _ _ _ => rfl⟩, ?_⟩
  intro junk sched
  have h1 : oneAmps.n = 1 := rfl
  have he : ∀ p, oneAmps.ext 0 p = [p] := fun _ => rfl
  refine ⟨?_, ?_, ?_⟩
  · simp [run, St.apply, St.setEvents, St.reset, St.prepare, St.transferParameters, List.range_succ,
      St.prepareOne, St.init, ME.prepare, ME.setExternal, St.updateCache, St.updateInteg, oneAmps_field, h1, he]
  · simp [Amps.total, Amps.at, oneAmps]
  · simp [run, St.apply, St.setEvents, St.reset, St.prepare, St.transferParameters, List.range_succ,
      St.prepareOne, St.init, ME.prepare, ME.setExternal, St.updateCache, St.updateInteg, oneAmps_field, St.getVal, h1, he]
    simp [oneAmps]

/-! ### C09 -/

theorem sumOver_pack {M : Type} [AddCommMonoid M] (hW : 0 < W) (pad : SimEvent X) (evs : List (SimEvent X))
    (f : SimEvent X → M) (hpad : f pad = 0) : sumOver (pack W pad evs) f = (evs.map f).sum := by
  have hget : (evs.map f).sum = ∑ k ∈ Finset.range evs.length, f (evs.getD k pad) := by
    rw [← list_range_sum]
    congr 1
    apply List.ext_getElem
    · simp
    · intro i h1 h2
      have : i < evs.length := by simpa using h1
      simp [List.getD_eq_getElem?_getD, this]
  have hblocks : ∀ n, sumOver ((List.range n).map fun b (l : Fin W) => evs.getD (b * W + l) pad) f =
      ∑ k ∈ Finset.range (n * W), f (evs.getD k pad) := by
    intro n
    induction n with
    | zero => simp [sumOver]
    | succ n ih =>
      have : sumOver ((List.range (n + 1)).map fun b (l : Fin W) => evs.getD (b * W + l) pad) f =
          sumOver ((List.range n).map fun b (l : Fin W) => evs.getD (b * W + l) pad) f +
            ∑ l : Fin W, f (evs.getD (n * W + l) pad) := by
        unfold sumOver
        rw [List.range_succ]
        simp
      rw [this, ih, Nat.add_mul, Nat.one_mul, Finset.sum_range_add, Finset.sum_range fun x => f (evs.getD (n * W + x) pad)]
  unfold pack
  rw [hblocks, hget]
  have hle : evs.length ≤ (evs.length + W - 1) / W * W := by
    have := Nat.div_add_mod (evs.length + W - 1) W
    have h2 := Nat.mod_lt (evs.length + W - 1) hW
    rw [Nat.mul_comm] at this
    omega
  obtain ⟨d, hd⟩ := Nat.exists_eq_add_of_le hle
  rw [hd, Finset.sum_range_add]
  have : ∑ x ∈ Finset.range d, f (evs.getD (evs.length + x) pad) = 0 := by
    apply Finset.sum_eq_zero
    intro x _
    rw [List.getD_eq_getElem?_getD, List.getElem?_eq_none (by omega)]
    exact hpad
  rw [this, add_zero]

/-- C09: after any history ending in `prepare` with an integration sample attached, the
normalisation is the average over the sample of the squared modulus of the total amplitude,
and the average over the sample of the returned density is the configured weight. -/
theorem coherent_normalised_partial (A : Amps P X) (hA : A.WF) (sched : List Req → List Req)
    (hs : ∀ q, (sched q).Perm q) (p : P) (ops : List (Op P X W)) (hops : ∀ op ∈ ops, op.Tracked)
    (evs : List (Fin W → SimEvent X)) (he : lastSim none ops = some evs) :
    let s := run A sched p (ops ++ [.prepare])
    let q := lastPar p ops
    s.norm = average evs (fun x => Complex.normSq (A.total q x)) ∧
    (s.norm ≠ 0 → average evs (fun x => s.evaluator A x) = A.weight q) ∧
    ((∀ b ∈ evs, ∀ l, 0 ≤ (b l).w) → 0 ≤ s.norm) := by
  intro s q
  obtain ⟨_, _, h3, h4, h5⟩ := incremental_update_exact_partial A hA sched hs p ops hops
  have hn := h3 evs he
  refine ⟨hn, ?_, ?_⟩
  · intro hne
    have hev : ∀ x, s.evaluator A x = A.weight q / s.norm * Complex.normSq (A.total q x) := by
      intro x
      show A.weight s.par / s.norm * Complex.normSq (s.evalAmp A x) = _
      rw [h4 x, h5]
    have hC : ((average evs fun x => s.evaluator A x : ℝ) : ℂ) =
        ((A.weight q / s.norm * s.norm : ℝ) : ℂ) := by
      have e1 : (fun x => ((s.evaluator A x : ℝ) : ℂ)) =
          fun x => ((A.weight q / s.norm : ℝ) : ℂ) * ((Complex.normSq (A.total q x) : ℝ) : ℂ) := by
        funext x; rw [hev x]; push_cast; rfl
      rw [← averageC_ofReal, e1, averageC_mul, averageC_ofReal]
      rw [show average evs (fun x => Complex.normSq (A.total q x)) = s.norm from hn.symm]
      push_cast; rfl
    rw [Complex.ofReal_inj.mp hC]
    exact div_mul_cancel₀ _ hne
  · intro hw
    show 0 ≤ s.norm
    rw [show s.norm = _ from hn]
    exact div_nonneg (sumOver_nonneg _ _ fun b hb l => mul_nonneg (hw b hb l) (Complex.normSq_nonneg _))
      (sumOver_nonneg _ _ fun b hb l => hw b hb l)

/-- C09: the same for a list of events packed into blocks whose unused lanes have no weight. -/
theorem coherent_normalised_events_partial (A : Amps P X) (hA : A.WF) (sched : List Req → List Req)
    (hs : ∀ q, (sched q).Perm q) (p : P) (ops : List (Op P X W)) (hops : ∀ op ∈ ops, op.Tracked)
    (hW : 0 < W) (pad : SimEvent X) (hpad : pad.weight = 0) (evs : List (SimEvent X))
    (he : lastSim none ops = some (pack W pad evs)) :
    let s := run A sched p (ops ++ [.prepare])
    let q := lastPar p ops
    s.norm = (evs.map fun e => e.w * Complex.normSq (A.total q e.x)).sum / (evs.map SimEvent.w).sum ∧
    (s.norm ≠ 0 → (evs.map fun e => e.w * s.evaluator A e.x).sum / (evs.map SimEvent.w).sum = A.weight q) := by
  intro s q
  obtain ⟨h1, h2, _⟩ := coherent_normalised_partial A hA sched hs p ops hops _ he
  have hw : pad.w = 0 := by simp [SimEvent.w, hpad]
  have hav : ∀ f : X → ℝ, average (pack W pad evs) f =
      (evs.map fun e => e.w * f e.x).sum / (evs.map SimEvent.w).sum := by
    intro f
    unfold average
    rw [sumOver_pack hW pad evs _ (by simp [hw]), sumOver_pack hW pad evs _ hw]
  exact ⟨by rw [← hav fun x => Complex.normSq (A.total q x)]; exact h1, fun h => by rw [← hav fun x => s.evaluator A x]; exact h2 h⟩

/-- The hypotheses are met, with a normalisation that is not zero. -/
example : ∃ ops : List (Op ℝ ℝ 2), (∀ op ∈ ops, op.Tracked) ∧
    lastSim none ops = some (pack 2 ⟨0, 0, 1⟩ [⟨1, 1, 1⟩, ⟨2, 1, 1⟩, ⟨3, 1, 1⟩]) ∧
    (run demoAmps id 1 (ops ++ [.prepare])).norm ≠ 0 := by
  refine ⟨[.setMC (pack 2 ⟨0, 0, 1⟩ [⟨1, 1, 1⟩, ⟨2, 1, 1⟩, ⟨3, 1, 1⟩]) fun _ _ _ => 5], by simp [Op.Tracked], rfl, ?_⟩
  rw [(coherent_normalised_events_partial demoAmps demoAmps_wf id (fun q => List.Perm.refl q) 1 _ (by simp [Op.Tracked])
    (by decide) _ rfl _ rfl).1]
  simp only [List.map_cons, List.map_nil, SimEvent.w, lastPar, Amps.total, Amps.at, demoAmps, Finset.sum_range_succ,
    Finset.sum_range_zero, List.sum_cons, List.sum_nil, Complex.normSq_apply]
  norm_num

/-- One amplitude, equal to the event. -/
def padAmps : Amps Unit ℝ := ⟨1, fun _ => "a", fun _ _ => [], fun _ _ x => (x : ℂ), fun _ _ => 1, fun _ => 1⟩

/-- With the padding of the vectorised event list, a copy of the last event, the density is not
normalised on the events of the sample: three events in blocks of two lanes. -/
theorem coherent_padding_counterexample :
    ∃ (A : Amps Unit ℝ) (evs : List (SimEvent ℝ)) (pad : SimEvent ℝ), A.WF ∧ evs.getLast? = some pad ∧ A.weight () = 1 ∧
      ∀ (sched : List Req → List Req), (∀ q, (sched q).Perm q) →
        let s := run (W := 2) A sched () [.setMC (pack 2 pad evs) fun _ _ _ => 0, .prepare]
        (evs.map fun e => e.w * s.evaluator A e.x).sum / (evs.map SimEvent.w).sum = 4 / 5 := by
  refine ⟨padAmps,
    [⟨1, 1, 1⟩, ⟨1, 1, 1⟩, ⟨2, 1, 1⟩], ⟨2, 1, 1⟩, ⟨by decide, fun _ _ _ => rfl⟩, rfl, rfl, ?_⟩
  intro sched hs s
  obtain ⟨_, _, h3, h4, h5⟩ := incremental_update_exact_partial padAmps
    ⟨by decide, fun _ _ _ => rfl⟩ sched hs ()
    [.setMC (pack 2 ⟨2, 1, 1⟩ [⟨1, 1, 1⟩, ⟨1, 1, 1⟩, ⟨2, 1, 1⟩]) fun _ _ _ => 0] (by simp [Op.Tracked])
  have hn : s.norm = 5 / 2 := by
    refine (h3 _ rfl).trans ?_
    simp only [average, sumOver, pack, padAmps, Amps.total, Amps.at, SimEvent.w, Finset.sum_range_succ,
      Finset.sum_range_zero, Complex.normSq_apply, Fin.sum_univ_two, List.length_cons, List.length_nil,
      List.range_succ, List.range_zero, List.map_append, List.map_cons, List.map_nil, List.sum_append, List.sum_cons,
      List.sum_nil]
    norm_num
  have hx : ∀ x, s.evaluator padAmps x = 1 / (5 / 2) * (x * x) := by
    intro x
    have e4 := h4 x
    show 1 / s.norm * Complex.normSq (s.evalAmp padAmps x) = _
    rw [hn, show s.evalAmp padAmps x = _ from e4]
    simp only [padAmps, Amps.total, Amps.at, Finset.sum_range_succ, Finset.sum_range_zero, Complex.normSq_apply]
    simp
  simp only [List.map_cons, List.map_nil, List.sum_cons, List.sum_nil, SimEvent.w, hx]
  norm_num

/-! ### C12 -/

/-- C12: the fractions of the members of a partition plus twice the interference fractions of
its pairs add up to one. -/
theorem fit_fractions_add_up (coef : Nat → ℂ) (norm : Nat → Nat → ℂ) (groups : List (List Nat))
    (normSet : List Nat) (hp : groups.flatten.Perm normSet) (h0 : ffNorm coef norm normSet ≠ 0) :
    (groups.map fun g => ffVal coef norm normSet g g).sum +
      2 * ((crossPairs groups).map fun p => ffVal coef norm normSet p.1 p.2).sum = 1 := by
  have hdiv : ∀ {α : Type} (f : α → ℝ) (c : ℝ) (l : List α), (l.map fun a => f a / c).sum = (l.map f).sum / c := by
    intro α f c l
    simp only [div_eq_mul_inv]
    rw [List.sum_map_mul_right]
  unfold ffVal
  rw [hdiv, hdiv]
  have key := reSum_partition coef norm groups
  rw [reSum_perm coef norm hp] at key
  simp only [ffSum_re]
  rw [← mul_div_assoc, ← add_div, ← key]
  unfold ffNorm at h0 ⊢
  rw [ffSum_re] at h0 ⊢
  exact div_self h0

/-- C12: the last entry of the list of fractions is their sum. -/
theorem fit_fractions_total (coef : Nat → ℂ) (norm : Nat → Nat → ℂ) (normSet : List Nat)
    (calcs : List (List Nat × List Nat)) :
    ffValues coef norm normSet calcs = calcs.map (fun c => ffVal coef norm normSet c.1 c.2) ++
      [(calcs.map fun c => ffVal coef norm normSet c.1 c.2).sum] := by
  unfold ffValues
  have : ∀ (cs : List (List Nat × List Nat)) (a : List ℝ) (b : ℝ),
      cs.foldl (fun (st : List ℝ × ℝ) c =>
        (st.1 ++ [ffVal coef norm normSet c.1 c.2], st.2 + ffVal coef norm normSet c.1 c.2)) (a, b) =
      (a ++ cs.map (fun c => ffVal coef norm normSet c.1 c.2),
        b + (cs.map fun c => ffVal coef norm normSet c.1 c.2).sum) := by
    intro cs
    induction cs with
    | nil => intro a b; simp
    | cons c cs ih => intro a b; rw [List.foldl_cons, ih]; simp [add_assoc]
  rw [this]
  simp

/-- C12: what a fraction is: the integral of the component over the integral of the whole,
after any history ending in `prepare`. -/
theorem fit_fraction_meaning (A : Amps P X) (hA : A.WF) (sched : List Req → List Req)
    (hs : ∀ q, (sched q).Perm q) (p : P) (ops : List (Op P X W)) (hops : ∀ op ∈ ops, op.Tracked)
    (evs : List (Fin W → SimEvent X)) (he : lastSim none ops = some evs) (g : List Nat) (hg : ∀ i ∈ g, i < A.n) :
    let s := run A sched p (ops ++ [.prepare])
    let q := lastPar p ops
    ffVal (fun i => A.coup i q) (fun i j => s.norms (i * A.n + j)) (List.range A.n) g g =
      average evs (fun x => Complex.normSq (g.map fun i => A.coup i q * A.at q i x).sum) /
        average evs (fun x => Complex.normSq (A.total q x)) := by
  intro s q
  obtain ⟨_, h2, _⟩ := incremental_update_exact_partial A hA sched hs p ops hops
  unfold ffVal ffNorm
  rw [ffSum_self_average evs _ (A.at q) _ A.n (h2 evs he) g hg,
    ffSum_self_average evs _ (A.at q) _ A.n (h2 evs he) (List.range A.n) fun i hi => List.mem_range.mp hi]
  congr 1

/-- Three amplitudes in two components. -/
example : ([[0, 2], [1]] : List (List Nat)).flatten.Perm (List.range 3) ∧
    ffNorm (fun _ => 1) (fun i j => if i = j then 1 else 0) (List.range 3) ≠ 0 := by
  refine ⟨by decide, ?_⟩
  unfold ffNorm ffSum
  simp [List.range_succ]
  norm_num

/-! ### C13 -/

/-- C13: the component weights of an event add up to the squared modulus of its amplitude. -/
theorem components_add_up (n : Nat) (coef : Nat → ℂ) (cache : Nat → Nat → Fin W → ℂ) (b : Nat) (l : Fin W) :
    (components n coef cache b l).sum = Complex.normSq (∑ i ∈ Finset.range n, coef i * cache i b l) := by
  unfold components
  exact components_sum n fun i => coef i * cache i b l

/-- C13: on a prepared sum the components of an event of the integration sample add up to the
squared modulus of the total amplitude, and hence, scaled by weight over norm, to the density
returned for it. -/
theorem components_total (A : Amps P X) (hA : A.WF) (sched : List Req → List Req)
    (hs : ∀ q, (sched q).Perm q) (p : P) (ops : List (Op P X W)) (hops : ∀ op ∈ ops, op.Tracked)
    (evs : List (Fin W → SimEvent X)) (he : lastSim none ops = some evs) (b : Nat) (hb : b < evs.length) (l : Fin W) :
    let s := run A sched p (ops ++ [.prepare])
    let comps := components A.n (fun i => (s.me i).coefficient) s.integ.cache b l
    comps.sum = Complex.normSq (A.total (lastPar p ops) (evs[b] l).x) ∧
    A.weight s.par / s.norm * comps.sum = s.evaluator A (evs[b] l).x := by
  intro s comps
  have hsum : comps.sum = Complex.normSq (A.total (lastPar p ops) (evs[b] l).x) := by
    show (components _ _ _ _ _).sum = _
    rw [components_add_up]
    obtain ⟨hinv, h1, h2, h3⟩ := run_spec A hA sched hs ops hops (St.init A p : St P X W) (inv_init A hA p)
    have hp := prepare_spec A hA sched hs hinv
    have hs' : s = (ops.foldl (fun s op => s.apply A sched op) (St.init A p : St P X W)).prepare A sched := by
      show run A sched p (ops ++ [.prepare]) = _
      unfold run
      rw [List.foldl_append]
      rfl
    rw [← hs'] at hp
    congr 1
    apply Finset.sum_congr rfl
    intro i hi
    show (s.me i).coefficient * s.integ.cache i b l = _
    rw [hp.coef i, hp.icache i (Finset.mem_range.mp hi) evs (by rw [hp.ievents, h3]; exact he) b _ l
      (List.getElem?_eq_getElem hb), h1]
    rfl
  obtain ⟨_, _, _, h4, _⟩ := incremental_update_exact_partial A hA sched hs p ops hops
  refine ⟨hsum, ?_⟩
  rw [hsum]
  show _ = A.weight s.par / s.norm * Complex.normSq (s.evalAmp A _)
  rw [show s.evalAmp A _ = _ from h4 _]

end AmpGen.Coherent
