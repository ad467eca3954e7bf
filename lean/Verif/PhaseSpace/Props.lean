import Verif.PhaseSpace.Lemmas
/-
C15: events of the phase-space generator are physical.  C16: its accept/reject step.
-/
namespace AmpGen.PhaseSpace

theorem range_getD_sum (f : Nat → V4) (F : V4 → ℝ) (n : Nat) :
    ((((List.range n).map f)).map F).sum = ∑ j ∈ Finset.range n, F (f j) := by
  induction n with
  | zero => simp
  | succ n ih => simp [List.range_succ, Finset.sum_range_succ, ih] at *; rw [ih]

theorem fill_some {g : Gen} {junk : Nat → ℝ} {out0 : Nat → V4} {r : Nat → ℝ} {fuel : Nat} {event : List V4}
    (h : fill g junk out0 r fuel = some event) : ∃ pos, accept g r fuel 0 = some pos ∧
      event = (List.range g.nt).map ((List.range' 1 (g.nt - 1)).foldl
        (fun o i => place g (invMas g (draws r pos)) (pd g (draws r pos) junk)
          (r (pos + (g.nt - 2) + 1 + 2 * (i - 1))) (r (pos + (g.nt - 2) + 1 + 2 * (i - 1) + 1)) i o)
        (Function.update out0 0 ⟨0, pd g (draws r pos) junk 0, 0,
          √(pd g (draws r pos) junk 0 * pd g (draws r pos) junk 0 + g.mass 0 * g.mass 0)⟩)) := by
  unfold fill at h
  split at h
  · exact absurd h (by simp)
  · cases ha : accept g r fuel 0 with
    | none => rw [ha] at h; exact absurd h (by simp)
    | some pos =>
      rw [ha] at h
      exact ⟨pos, rfl, (Option.some.inj h).symm⟩

/-- C15: whatever the random numbers and the previous content of the output, an event of an allowed
decay has one momentum per particle, in total those of the decaying particle at rest, each on
the shell of its configured mass with positive energy. -/
theorem phase_space_event (m0 : ℝ) (masses : List ℝ) (hA : Allowed m0 masses) (junk : Nat → ℝ) (out0 : Nat → V4)
    (r : Nat → ℝ) (hr : Variates r) (fuel : Nat) (event : List V4)
    (h : fill (setDecay m0 masses).1 junk out0 r fuel = some event) :
    event.length = masses.length ∧ TotalAtRest m0 event ∧
    ∀ (j : Nat) (hj : j < masses.length), ∃ v, event[j]? = some v ∧ OnShell masses[j] v := by
  obtain ⟨hg, _, hnt, hmass⟩ := setDecay_ready hA
  set g := (setDecay m0 masses).1
  obtain ⟨pos, _, rfl⟩ := fill_some h
  have htwo := hg.two
  have hP := chain_spec hg (draws_variates hr pos) junk hr (pos + (g.nt - 2) + 1) out0 (g.nt - 1) (le_refl _)
  generalize (List.range' 1 (g.nt - 1)).foldl _ _ = out at hP
  have hn : g.nt - 1 + 1 = g.nt := by omega
  refine ⟨by simp [hnt], ⟨?_, ?_, ?_, ?_⟩, ?_⟩
  · rw [range_getD_sum]; have := hP.sx; rwa [hn] at this
  · rw [range_getD_sum]; have := hP.sy; rwa [hn, if_pos rfl] at this
  · rw [range_getD_sum]; have := hP.sz; rwa [hn] at this
  · rw [range_getD_sum]; have := hP.se
    rw [hn, if_pos rfl, invMas_last hg (draws_variates hr pos)] at this
    exact this
  · intro j hj
    refine ⟨out j, ?_, ?_⟩
    · rw [List.getElem?_map, List.getElem?_range (by omega)]; rfl
    · have := hP.shell j (by omega)
      rw [hmass] at this
      simp only [List.getD_eq_getElem _ _ hj] at this
      exact this

/-- The number of attempts is bounded only by the random numbers: the generator returns an
event as soon as one attempt is accepted. -/
theorem phase_space_returns (m0 : ℝ) (masses : List ℝ) (hA : Allowed m0 masses) (junk : Nat → ℝ) (out0 : Nat → V4)
    (r : Nat → ℝ) (k : Nat)
    (hk : r (k * (masses.length - 1) + (masses.length - 2)) ≤
      weight (setDecay m0 masses).1 (draws r (k * (masses.length - 1)))) :
    (fill (setDecay m0 masses).1 junk out0 r (k + 1)).isSome := by
  obtain ⟨hg, _, hnt, _⟩ := setDecay_ready hA
  set g := (setDecay m0 masses).1
  have htwo := hg.two
  have hcap := hg.cap
  have key : ∀ n pos, r (pos + n * (g.nt - 1) + (g.nt - 2)) ≤ weight g (draws r (pos + n * (g.nt - 1))) →
      (accept g r (n + 1) pos).isSome := by
    intro n
    induction n with
    | zero =>
      intro pos h
      rw [Nat.zero_mul, Nat.add_zero] at h
      unfold accept
      rw [if_neg (not_lt.mpr h)]; rfl
    | succ n ih =>
      intro pos h
      unfold accept
      split
      · apply ih
        have e : pos + (g.nt - 2) + 1 + n * (g.nt - 1) = pos + (n + 1) * (g.nt - 1) := by
          rw [Nat.add_mul]; omega
        rw [e]; exact h
      · rfl
  have hs := key k 0 (by rw [Nat.zero_add, hnt]; exact hk)
  unfold fill
  rw [if_neg (by omega)]
  cases ha : accept g r (k + 1) 0 with
  | none => rw [ha] at hs; simp at hs
  | some pos => rfl

theorem breakup_eq {m m1 m2 : ℝ} (hm : 0 < m) (h1 : 0 ≤ m1) (h2 : 0 ≤ m2) (h : m1 + m2 ≤ m) :
    q m m1 m2 = breakup m m1 m2 := by
  have hk : kallen (m ^ 2) (m1 ^ 2) (m2 ^ 2) = lam m m1 m2 * m ^ 2 := by
    unfold kallen lam; field_simp; ring
  unfold breakup
  rw [q_eq, hk, Real.sqrt_mul (lam_nonneg hm h1 h2 h), Real.sqrt_sq hm.le]
  field_simp
  ring

/-- C16: an attempt is accepted exactly when its uniform variate is at most its weight.  The
weight is a positive constant of the decay times the product of the break-up momenta of the chain of two-body
decays with the sampled intermediate masses, and it never exceeds one. -/
theorem phase_space_acceptance (m0 : ℝ) (masses : List ℝ) (hA : Allowed m0 masses) :
    ∃ c : ℝ, 0 < c ∧ ∀ (r : Nat → ℝ), Variates r → ∀ pos,
      let M := invMas (setDecay m0 masses).1 (draws r pos)
      let w := c * ∏ n ∈ Finset.range (masses.length - 1), breakup (M (n + 1)) (M n) (masses.getD (n + 1) 0)
      0 ≤ w ∧ w ≤ 1 ∧ weight (setDecay m0 masses).1 (draws r pos) = w ∧
      ∀ fuel, accept (setDecay m0 masses).1 r (fuel + 1) pos =
        if r (pos + (masses.length - 2)) ≤ w then some pos
        else accept (setDecay m0 masses).1 r fuel (pos + (masses.length - 1)) := by
  obtain ⟨hg, _, hnt, hmass⟩ := setDecay_ready hA
  set g := (setDecay m0 masses).1
  refine ⟨g.wtMax, wtMax_pos hg, ?_⟩
  intro r hr pos M w
  have htwo := hg.two
  have hw : weight g (draws r pos) = w := by
    rw [weight_eq, hnt]
    show g.wtMax * _ = g.wtMax * _
    congr 1
    apply Finset.prod_congr rfl
    intro n hn
    have hn' : n + 1 < g.nt := by have := Finset.mem_range.mp hn; omega
    rw [hmass]
    have hm1 := hg.mass (n + 1)
    have hst := invMas_step hg (draws_variates hr pos) hn'
    rw [hmass] at hm1 hst
    exact breakup_eq (invMas_pos hg (draws_variates hr pos) (by omega) hn')
      ((psum_nonneg hg.mass _).trans (invMas_low hg (draws_variates hr pos) (by omega))) hm1 hst
  have hb := weight_le hg (draws_variates hr pos)
  rw [hw] at hb
  refine ⟨hb.1, hb.2, hw, ?_⟩
  intro fuel
  rw [accept, hw, hnt]
  by_cases hc : r (pos + (masses.length - 2)) ≤ w
  · rw [if_pos hc, if_neg (not_lt.mpr hc)]
  · rw [if_neg hc, if_pos (not_le.mp hc)]
    congr 1
    omega

/-- C16: the sampled intermediate masses are the order statistics of the variates between the
thresholds, and in the event returned the first `n + 1` particles have invariant mass number `n`. -/
theorem phase_space_masses (m0 : ℝ) (masses : List ℝ) (hA : Allowed m0 masses) (junk : Nat → ℝ) (out0 : Nat → V4)
    (r : Nat → ℝ) (hr : Variates r) (fuel : Nat) (event : List V4)
    (h : fill (setDecay m0 masses).1 junk out0 r fuel = some event) :
    ∃ pos, accept (setDecay m0 masses).1 r fuel 0 = some pos ∧
      ∃ s : List ℝ, s.Perm ((List.range (masses.length - 2)).map (draws r pos)) ∧ s.Pairwise (· ≤ ·) ∧
      ∀ n < masses.length,
        invMas (setDecay m0 masses).1 (draws r pos) n =
          ((0 :: s) ++ [1]).getD n 0 * (m0 - masses.sum) + (masses.take (n + 1)).sum ∧
        invMassSq (event.take (n + 1)) = invMas (setDecay m0 masses).1 (draws r pos) n ^ 2 := by
  obtain ⟨hg, _, hnt, hmass⟩ := setDecay_ready hA
  set g := (setDecay m0 masses).1
  obtain ⟨pos, hacc, rfl⟩ := fill_some h
  have htwo := hg.two
  refine ⟨pos, hacc, ((List.range (masses.length - 2)).map (draws r pos)).insertionSort (· ≤ ·),
    List.perm_insertionSort _ _, List.pairwise_insertionSort _ _, ?_⟩
  have hP := chain_spec hg (draws_variates hr pos) junk hr (pos + (g.nt - 2) + 1) out0 (g.nt - 1) (le_refl _)
  generalize (List.range' 1 (g.nt - 1)).foldl _ _ = out at hP
  intro n hn
  constructor
  · have hrno : rno g.nt (draws r pos) =
        0 :: (((List.range (masses.length - 2)).map (draws r pos)).insertionSort (· ≤ ·) ++ [1]) := by
      unfold rno
      rw [if_neg (by omega), hnt]
      congr 1
      apply List.Perm.eq_of_pairwise (le := (· ≤ ·))
      · intro a b _ _ h1 h2; exact le_antisymm h1 h2
      · exact List.pairwise_insertionSort _ _
      · rw [List.pairwise_append]
        refine ⟨List.pairwise_insertionSort _ _, List.pairwise_singleton _ _, ?_⟩
        intro a ha b hb
        rw [List.mem_insertionSort] at ha
        obtain ⟨k, _, rfl⟩ := List.mem_map.mp ha
        rw [List.mem_singleton.mp hb]
        exact (draws_variates hr pos k).2.le
      · exact (List.perm_insertionSort _ _).trans ((List.perm_insertionSort _ _).symm.append_right _)
    rw [invMas_eq, hrno]
    have hte : g.te = m0 - masses.sum := by
      have := hg.total
      rw [hmass, hnt, psum_getD] at this
      linarith
    rw [hte]
    congr 1
    rw [hmass]
    have : ∀ k, psum (fun n => masses.getD n 0) k = (masses.take k).sum := by
      intro k
      induction k with
      | zero => simp [psum]
      | succ k ih =>
        rw [psum_succ, ih]
        rcases Nat.lt_or_ge k masses.length with hk | hk
        · rw [List.take_add_one, List.getElem?_eq_getElem hk, List.getD_eq_getElem _ _ hk]
          simp only [Option.toList_some, List.sum_append, List.sum_singleton]
        · rw [List.take_of_length_le hk, List.take_of_length_le (by omega)]
          simp [List.getD_eq_getElem?_getD, List.getElem?_eq_none hk]
    exact this (n + 1)
  · have := hP.sub n (by omega)
    rw [← this]
    unfold invMassSq quad
    have ht : ((List.range g.nt).map out).take (n + 1) = (List.range (n + 1)).map out := by
      rw [← List.map_take, List.take_range, Nat.min_eq_left (by omega)]
    rw [ht, range_getD_sum, range_getD_sum, range_getD_sum, range_getD_sum]

/-- A three-body decay with a massless particle is allowed, and there are variates for which an
event is returned at once. -/
example : Allowed 2 [0.5, 0, 0.1] ∧ ∃ r, Variates r ∧
    ∀ junk out0, (fill (setDecay 2 [0.5, 0, 0.1]).1 junk out0 r 1).isSome := by
  have hA : Allowed 2 [0.5, 0, 0.1] := ⟨by intro m hm; simp at hm; rcases hm with rfl | rfl | rfl <;> norm_num,
    by simp, by simp, by norm_num⟩
  refine ⟨hA, ?_⟩
  obtain ⟨hg, _, hnt, _⟩ := setDecay_ready hA
  have hv : ∀ a : ℝ, 0 < a → a < 1 → ∀ k : Nat, 0 < (if k = 1 then a else (1 / 2 : ℝ)) ∧ (if k = 1 then a else (1 / 2 : ℝ)) < 1 := by
    intro a h0 h1 k
    split
    · exact ⟨h0, h1⟩
    · norm_num
  have hpos : ∀ u : Nat → ℝ, (∀ k, 0 < u k ∧ u k < 1) → 0 < weight (setDecay 2 [0.5, 0, 0.1]).1 u := by
    intro u hu
    rw [weight_eq]
    apply mul_pos (wtMax_pos hg)
    apply Finset.prod_pos
    intro n hn
    have hn' : n < 2 := by rw [hnt] at hn; simpa using hn
    have hl : (rno (setDecay 2 [0.5, 0, 0.1]).1.nt u) = [0, u 0, 1] := by
      rw [hnt]
      simp [rno, (hu 0).2.le]
    apply q_pos
    · exact invMas_pos hg hu (by omega) (by rw [hnt]; simp; omega)
    · exact (psum_nonneg hg.mass _).trans (invMas_low hg hu (by rw [hnt]; simp; omega))
    · exact hg.mass _
    · rw [invMas_eq, invMas_eq, psum_succ _ (n + 1), hl]
      have := hg.te
      have h0 := hu 0
      rcases (show n = 0 ∨ n = 1 by omega) with rfl | rfl
      · simp only [List.getD_cons_zero, List.getD_cons_succ]
        nlinarith
      · simp only [List.getD_cons_zero, List.getD_cons_succ]
        nlinarith
  set w := weight (setDecay 2 [0.5, 0, 0.1]).1 (fun _ => (1 / 2 : ℝ)) with hw
  have hw0 : 0 < w := hpos _ (fun _ => by norm_num)
  have hw1 : w ≤ 1 := (weight_le hg (fun _ => by norm_num)).2
  refine ⟨fun k => if k = 1 then w / 2 else 1 / 2, hv _ (by linarith) (by linarith), ?_⟩
  intro junk out0
  apply phase_space_returns 2 [0.5, 0, 0.1] hA junk out0 _ 0
  have : weight (setDecay 2 [0.5, 0, 0.1]).1 (draws (fun k => if k = 1 then w / 2 else 1 / 2) 0) = w := by
    rw [hw, weight_eq, weight_eq]
    have hl : ∀ u : Nat → ℝ, u 0 = 1 / 2 → rno (setDecay 2 [0.5, 0, 0.1]).1.nt u = [0, 1 / 2, 1] := by
      intro u h
      rw [hnt]
      simp [rno, h]
      norm_num
    simp only [invMas_eq]
    rw [hl _ (by simp [draws]), hl _ rfl]
  simp only [Nat.zero_mul]
  rw [this]
  simp
  linarith

end AmpGen.PhaseSpace
