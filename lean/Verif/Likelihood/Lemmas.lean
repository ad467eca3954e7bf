import Verif.Likelihood.Spec
import Verif.Coherent.Props
/-
Lemmas on incoherent sums, on histories of a sum of densities, and on the lower triangle of
the matrix of integrals.
-/
namespace AmpGen.Likelihood

open Coherent

variable {P X : Type} {W : Nat}

theorem run_prepare (A : Amps P X) (hA : A.WF) (sched : List Req → List Req) (hs : ∀ q, (sched q).Perm q)
    (p : P) (ops : List (Op P X W)) (hops : ∀ op ∈ ops, op.Tracked) :
    let s := run A sched p (ops ++ [.prepare])
    let q := lastPar p ops
    (∀ i, (s.me i).coefficient = A.coup i q) ∧ (∀ i < A.n, (s.me i).buffer = A.ext i q) ∧
    (∀ evs, lastData none ops = some evs → ∀ i < A.n, ∀ b e l, evs[b]? = some e → s.cache i b l = A.at q i (e l)) := by
  intro s q
  obtain ⟨hinv, h1, h2, h3⟩ := run_spec A hA sched hs ops hops (St.init A p : St P X W) (inv_init A hA p)
  set s0 := ops.foldl (fun s op => s.apply A sched op) (St.init A p : St P X W) with hs0
  have hs' : s = s0.prepare A sched := by
    show run A sched p (ops ++ [.prepare]) = _
    unfold run
    rw [List.foldl_append, ← hs0]
    rfl
  have hp := prepare_spec A hA sched hs hinv
  rw [← hs'] at hp
  have hpar : s0.par = q := h1
  refine ⟨fun i => by rw [hp.coef i, hpar], fun i hi => by rw [hp.buffer i hi, hpar], ?_⟩
  intro evs he i hi b e l hb
  rw [hp.dcache i hi evs (by rw [hp.sdata, h2]; exact he) b e l hb, hpar]
  rfl

theorem average_congr (evs : List (Fin W → SimEvent X)) {f g : X → ℝ} (h : ∀ x, f x = g x) :
    average evs f = average evs g := by
  rw [show f = g from funext h]

theorem average_mul (evs : List (Fin W → SimEvent X)) (c : ℝ) (f : X → ℝ) :
    average evs (fun x => c * f x) = c * average evs f := by
  have := averageC_mul evs (c : ℂ) (fun x => ((f x : ℝ) : ℂ))
  have e : (fun x => (c : ℂ) * ((f x : ℝ) : ℂ)) = fun x => ((c * f x : ℝ) : ℂ) := by funext x; push_cast; rfl
  rw [e, averageC_ofReal, averageC_ofReal, ← Complex.ofReal_mul] at this
  exact Complex.ofReal_inj.mp this

theorem average_add (evs : List (Fin W → SimEvent X)) (f g : X → ℝ) :
    average evs (fun x => f x + g x) = average evs f + average evs g := by
  have := averageC_add evs (fun x => ((f x : ℝ) : ℂ)) (fun x => ((g x : ℝ) : ℂ))
  have e : (fun x => ((f x : ℝ) : ℂ) + ((g x : ℝ) : ℂ)) = fun x => ((f x + g x : ℝ) : ℂ) := by
    funext x; push_cast; rfl
  rw [e, averageC_ofReal, averageC_ofReal, averageC_ofReal, ← Complex.ofReal_add] at this
  exact Complex.ofReal_inj.mp this

theorem average_zero (evs : List (Fin W → SimEvent X)) : average evs (fun _ => (0 : ℝ)) = 0 := by
  have := average_mul evs 0 (fun _ => 0)
  simpa using this

theorem average_list_sum {α : Type} (evs : List (Fin W → SimEvent X)) (f : α → X → ℝ) (l : List α) :
    average evs (fun x => (l.map fun a => f a x).sum) = (l.map fun a => average evs (f a)).sum := by
  induction l with
  | nil => simp only [List.map_nil, List.sum_nil]; exact average_zero evs
  | cons a l ih => simp only [List.map_cons, List.sum_cons]; rw [average_add, ih]

theorem incTotal_list (A : Amps P X) (q : P) (x : X) :
    incTotal A q x = ((List.range A.n).map fun i => Complex.normSq (A.coup i q * A.at q i x)).sum := by
  unfold incTotal
  rw [list_range_sum]

/-- A diagonal entry of the matrix of integrals. -/
theorem norms_diag (A : Amps P X) (hA : A.WF) (sched : List Req → List Req) (hs : ∀ q, (sched q).Perm q)
    (p : P) (ops : List (Op P X W)) (hops : ∀ op ∈ ops, op.Tracked) (evs : List (Fin W → SimEvent X))
    (he : lastSim none ops = some evs) (i : Nat) (hi : i < A.n) :
    (run A sched p (ops ++ [.prepare])).norms (i * A.n + i) =
      ((average evs fun x => Complex.normSq (A.at (lastPar p ops) i x) : ℝ) : ℂ) := by
  obtain ⟨_, h2, _⟩ := incremental_update_exact_partial A hA sched hs p ops hops
  rw [h2 evs he i i (Nat.le_refl _) hi, ← averageC_ofReal]
  congr 1
  funext x
  rw [Complex.mul_conj]

/-- The entries below the diagonal of the matrix of integrals are never written. -/
theorem norms_lower (A : Amps P X) (hA : A.WF) (sched : List Req → List Req) (hs : ∀ q, (sched q).Perm q)
    (p : P) (ops : List (Op P X W)) (hops : ∀ op ∈ ops, op.Tracked) (i j : Nat) (hj : j < i) (hi : i < A.n) :
    (run A sched p ops).norms (i * A.n + j) = 0 := by
  induction ops using List.reverseRecOn with
  | nil => rfl
  | append_singleton ops op ih =>
    have ih := ih fun o ho => hops o (by simp [ho])
    obtain ⟨hinv, _⟩ := run_spec A hA sched hs ops (fun o ho => hops o (by simp [ho]))
      (St.init A p : St P X W) (inv_init A hA p)
    have hr : run A sched p (ops ++ [op]) = (run A sched p ops).apply A sched op := by
      unfold run
      rw [List.foldl_append]
      rfl
    rw [hr]
    have hinv : Inv A (run A sched p ops) := hinv
    set s := run A sched p ops with hsdef
    cases op with
    | setPar q => exact ih
    | setEvents evs junk => exact ih
    | setMC evs junk => exact ih
    | reset e => cases e <;> exact ih
    | transferParameters => exact ih
    | prepareElement k => exact ih
    | setExternals k v => exact ih
    | prepare =>
      show (s.prepare A sched).norms (i * A.n + j) = 0
      unfold St.prepare
      have ht := inv_transfer hinv
      have hl := loop_all A hA ht A.n (Nat.le_refl _)
      obtain ⟨s1, hs1⟩ : ∃ s1, (List.range A.n).foldl (fun s i => s.prepareOne A i) (s.transferParameters A) = s1 :=
        ⟨_, rfl⟩
      rw [hs1] at hl ⊢
      have hn1 : s1.norms = s.norms := hl.norms
      have hq1 : s1.integ.queue = [] := hl.iqueue.trans ht.queue
      dsimp only
      split
      · show (s1.updateNorms A sched).norms (i * A.n + j) = 0
        unfold St.updateNorms
        dsimp only
        set todo := ((pairs A.n).filter fun ij => (s1.me ij.1).workToDo || (s1.me ij.2).workToDo).map
          fun ij => (⟨ij.1 * A.n + ij.2, ij.1, ij.2⟩ : Req) with htodo
        have hmem : ∀ r ∈ todo, r.dest = r.i * A.n + r.j ∧ r.i ≤ r.j ∧ r.j < A.n := by
          intro r hr
          rw [htodo, List.mem_map] at hr
          obtain ⟨⟨a, b⟩, hab, rfl⟩ := hr
          have := mem_pairs.mp (List.mem_filter.mp hab).1
          exact ⟨rfl, this.1, this.2⟩
        have hc : Consistent todo := by
          intro r hr r' hr' hd
          obtain ⟨d1, _, l1⟩ := hmem r hr
          obtain ⟨d2, _, l2⟩ := hmem r' hr'
          rw [d1, d2] at hd
          exact addr_inj l1 l2 hd
        obtain ⟨mem', he, _, h3⟩ := queue_flush_all sched hs s1.integ hq1 s1.norms todo hc
        rw [he]
        show mem' (i * A.n + j) = 0
        rw [h3, hn1]
        · exact ih
        · intro r hr hd
          obtain ⟨d1, o1, l1⟩ := hmem r hr
          rw [d1] at hd
          have := addr_inj l1 (by omega) hd
          omega
      · show s1.norms (i * A.n + j) = 0
        rw [hn1]
        exact ih

end AmpGen.Likelihood
