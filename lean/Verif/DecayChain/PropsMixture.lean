import Verif.DecayChain.LemmasMixture
import Verif.DecayChain.Props
/-
C120 and C121: mixtures of decay chains.
-/
namespace AmpGen.DecayChain

open Classical
open AmpGen.PhaseSpace (V4)
open MeasureTheory (volume)

theorem addStack_mem (gen : List Stack) (s c : Stack) (hc : c ∈ gen) : c ∈ addStack gen s := by
  unfold addStack
  split
  · exact hc
  · exact List.mem_append_left _ hc

/-- State of the loops over chains and orderings. -/
theorem addStack_inv : ∀ (all gen : List Stack), gen.Pairwise (fun c d => ¬ c.same d) →
    (all.foldl addStack gen).Pairwise (fun c d => ¬ c.same d) ∧ (∀ c ∈ gen, c ∈ all.foldl addStack gen) ∧
    (∀ c ∈ all.foldl addStack gen, c ∈ gen ∨ c ∈ all) ∧ ∀ s ∈ all, ∃ c ∈ all.foldl addStack gen, c.same s := by
  intro all
  induction all with
  | nil => intro gen h; exact ⟨h, fun c hc => hc, fun c hc => Or.inl hc, by simp⟩
  | cons s all ih =>
    intro gen h
    have hs : (addStack gen s).Pairwise (fun c d => ¬ c.same d) := by
      unfold addStack
      split
      · exact h
      · rename_i hn
        rw [List.pairwise_append]
        refine ⟨h, List.pairwise_singleton _ _, ?_⟩
        intro a ha b hb
        rw [List.mem_singleton] at hb
        subst hb
        intro hab
        exact hn (List.any_eq_true.mpr ⟨a, ha, by simpa using hab⟩)
    obtain ⟨i1, i2, i3, i4⟩ := ih _ hs
    refine ⟨i1, fun c hc => i2 c (addStack_mem gen s c hc), ?_, ?_⟩
    · intro c hc
      rcases i3 c hc with h | h
      · unfold addStack at h
        split at h
        · exact Or.inl h
        · rcases List.mem_append.mp h with h | h
          · exact Or.inl h
          · right; rw [List.mem_singleton] at h; simp [h]
      · right; simp [h]
    · intro x hx
      rcases List.mem_cons.mp hx with rfl | hx
      · by_cases ha : gen.any fun it => decide (it.same x)
        · obtain ⟨c, hc, hcs⟩ := List.any_eq_true.mp ha
          exact ⟨c, i2 c (addStack_mem gen x c hc), by simpa using hcs⟩
        · refine ⟨x, i2 x ?_, ⟨rfl, fun _ _ => rfl, fun _ _ => rfl⟩⟩
          unfold addStack
          rw [if_neg ha]
          simp
      · exact i4 x hx

theorem foldl_flatten (chains : List (List Stack)) (gen : List Stack) :
    chains.foldl (fun gen orderings => orderings.foldl addStack gen) gen = chains.flatten.foldl addStack gen := by
  induction chains generalizing gen with
  | nil => rfl
  | cons c chains ih => rw [List.foldl_cons, ih, List.flatten_cons, List.foldl_append]

theorem uniform_probabilities (gen : List Stack) (h : gen ≠ []) :
    Probabilities gen (Discrete.probabilities (gen.map fun _ => 1 / (gen.length : ℝ))) ∧
    ∀ p ∈ Discrete.probabilities (gen.map fun _ => 1 / (gen.length : ℝ)), p = 1 / gen.length := by
  have hl : 0 < (gen.length : ℝ) := by exact_mod_cast List.length_pos_iff.mpr h
  have hsum : (gen.map fun _ => 1 / (gen.length : ℝ)).foldl (· + ·) 0 = 1 := by
    rw [← List.sum_eq_foldl, List.map_const', List.sum_replicate, nsmul_eq_mul]
    field_simp
  have hall : ∀ p ∈ Discrete.probabilities (gen.map fun _ => 1 / (gen.length : ℝ)), p = 1 / gen.length := by
    unfold Discrete.probabilities
    rw [hsum]
    intro p hp
    simp only [List.map_map, List.mem_map, Function.comp] at hp
    obtain ⟨c, _, rfl⟩ := hp
    rw [div_one]
  have hlen : (Discrete.probabilities (gen.map fun _ => 1 / (gen.length : ℝ))).length = gen.length := by
    simp [Discrete.probabilities]
  refine ⟨⟨hlen, ?_, ?_⟩, hall⟩
  · intro p hp; rw [hall p hp]; positivity
  · rw [List.eq_replicate_of_mem hall, List.sum_replicate, hlen, nsmul_eq_mul]
    field_simp

theorem same_density {c d : Stack} (h : SameChain c d) (ev : Nat → V4) : genPdf c ev = genPdf d ev := by
  obtain ⟨h1, _, h3⟩ := h
  unfold genPdf
  rw [← h1]
  apply List.foldl_ext
  intro g i hi
  rw [h3 i (List.mem_range.mp hi)]

/-- C120: a generator made from a list of decays has every chain once, each with the same
probability. -/
theorem mixture_chains (global : Draws) (size : Nat) (chains : List (List Stack)) (rndm : Option Draws)
    (h : chains.flatten ≠ []) :
    ∃ t, ofChains global size chains rndm = some t ∧ t.size = size ∧ t.gen.Pairwise (fun c d => ¬ SameChain c d) ∧
      (∀ c ∈ t.gen, c ∈ chains.flatten) ∧
      (∀ s ∈ chains.flatten, ∃ c ∈ t.gen, SameChain c s ∧ ∀ ev, genPdf c ev = genPdf s ev) ∧
      Probabilities t.gen t.dice ∧ ∀ p ∈ t.dice, p = 1 / t.gen.length := by
  obtain ⟨i1, i2, i3, i4⟩ := addStack_inv chains.flatten [] List.Pairwise.nil
  have hne : chains.flatten.foldl addStack [] ≠ [] := by
    intro hn
    obtain ⟨s, hs⟩ := List.exists_mem_of_ne_nil _ h
    obtain ⟨c, hc, _⟩ := i4 s hs
    rw [hn] at hc
    simp at hc
  unfold ofChains
  simp only [foldl_flatten]
  obtain ⟨g, hg⟩ : ∃ g, chains.flatten.foldl addStack [] = g := ⟨_, rfl⟩
  rw [hg] at i1 i3 i4 hne ⊢
  cases g with
  | nil => exact absurd rfl hne
  | cons first rest =>
    refine ⟨_, rfl, rfl, i1, ?_, fun s hs => (i4 s hs).imp fun c hc => ⟨hc.1, hc.2, same_density hc.2⟩, (uniform_probabilities _ hne).1, (uniform_probabilities _ hne).2⟩
    intro c hc
    rcases i3 c hc with h | h
    · simp at h
    · exact h

/-- C120: an event handed out was made by one of the chains, and the density stored with it is the density of the mixture in
which each chain counts with the probability that it is chosen. -/
theorem mixture_density (t : TreeGen) (hp : Probabilities t.gen t.dice) (fuel : Nat) (ev0 ev : Nat → V4) (g : ℝ)
    (h : t.makeEvent fuel ev0 = .event ev g) :
    g = mixture t.gen t.dice ev ∧
    (∃ d, t.rand = some d ∧ ∃ c ∈ t.gen, ∃ k i, Discrete.sample t.dice (d.dice k) = some i ∧ t.gen[i]? = some c ∧
        d.v k * t.wmax ≤ c.weight (d.u k) ∧ ev = fillFromState c (c.state (d.u k)) d.a d.b ev0) ∧
    ∀ i, volume {u : ℝ | 0 ≤ u ∧ u < 1 ∧ Discrete.sample t.dice u = some i} = ENNReal.ofReal (t.dice.getD i 0) := by
  obtain ⟨p1, p2, p3⟩ := hp
  refine ⟨?_, ?_, ?_⟩
  · unfold TreeGen.makeEvent at h
    split at h
    · exact absurd h (by simp)
    · split at h
      · simp only at h
        split at h
        · exact absurd h (by simp)
        · split at h
          · injection h with h1 h2
            rw [← h2, ← h1, density_eq t p1]
          · exact absurd h (by simp)
      · exact absurd h (by simp)
  · unfold TreeGen.makeEvent at h
    split at h
    · exact absurd h (by simp)
    · split at h
      · rename_i d first rest hr hgen
        simp only at h
        split at h
        · exact absurd h (by simp)
        · rename_i k ev' hm
          split at h
          · rename_i hall
            injection h with h1 h2
            subst h1
            refine ⟨d, hr, ?_⟩
            have hk := hall k le_rfl
            obtain ⟨c, hc⟩ := Option.isSome_iff_exists.mp hk
            unfold AmpGen.DecayChain.makeEvent at hm
            obtain ⟨k', hk', he⟩ := Option.map_eq_some_iff.mp hm
            injection he with e1 e2
            subst e1
            have ha := (accept_some hk').1
            simp only [hc, Option.getD_some] at ha e2
            obtain ⟨i, hi, hgi⟩ := Option.bind_eq_some_iff.mp hc
            exact ⟨c, List.mem_of_getElem? hgi, k', i, hi, hgi, ha, e2.symm⟩
          · exact absurd h (by simp)
      · exact absurd h (by simp)
  · intro i
    have := (Discrete.discrete_sampling_exact t.dice (fun w hw => (p2 w hw).le) (by rw [p3]; exact one_pos)).2 i
    rw [p3, div_one] at this
    exact this

/-- C120: re-weighting with events of which one at least has a stored density works for every mixture; it keeps the chains,
gives each chain a positive probability again, and changes them in proportion to the square root of the
importance of the chain. -/
theorem reweighting (t : TreeGen) {mass : ℝ} {m0 : Nat → ℝ} (hm : MadeOf mass m0 t.size t.gen) (hs : 1 ≤ t.size ∧ t.size ≤ 10)
    (hp : Probabilities t.gen t.dice) (events : List ((Nat → V4) × ℝ)) (he : ∃ e ∈ events, e.2 ≠ 0) :
    ∃ t', t.recalculate events = some t' ∧ t'.gen = t.gen ∧ t'.size = t.size ∧ t'.wmax = t.wmax ∧ t'.rand = t.rand ∧
      Probabilities t'.gen t'.dice ∧
      ∀ (i j : Nat) (hi : i < t.gen.length) (hj : j < t.gen.length),
        t'.dice.getD i 0 * (t.dice.getD j 0 * √(importance t.gen t.dice events t.gen[j])) =
        t'.dice.getD j 0 * (t.dice.getD i 0 * √(importance t.gen t.dice events t.gen[i])) := by
  have hpos := newWeights_pos t hm hp he
  obtain ⟨n1, n2⟩ := newWeights_eq t hp.1 events
  have hgl : 0 < t.gen.length := by
    rcases Nat.eq_zero_or_pos t.gen.length with h | h
    · have h3 := hp.2.2
      rw [List.length_eq_zero_iff.mp (hp.1.trans h)] at h3
      simp at h3
    · exact h
  have hsum : 0 < (t.newWeights events).sum := by
    apply List.sum_pos _ hpos
    intro h
    rw [h] at n1
    simp at n1
    omega
  have hfold : (t.newWeights events).foldl (· + ·) 0 = (t.newWeights events).sum := by rw [List.sum_eq_foldl]
  have hne : events ≠ [] := by
    obtain ⟨e, he, _⟩ := he
    exact List.ne_nil_of_mem he
  have hnd : ¬ (events = [] ∨ (∃ e ∈ events, t.density e.1 = 0) ∨ (t.newWeights events).foldl (· + ·) 0 = 0) := by
    rintro (h | ⟨e, _, h⟩ | h)
    · exact hne h
    · rw [density_eq t hp.1] at h
      exact (mixture_pos hp fun c hc => madeOf_pos hm hc e.1).ne' h
    · rw [hfold] at h
      exact hsum.ne' h
  have hsz : ¬ (t.size = 0 ∨ 10 < t.size) := by omega
  obtain ⟨q1, q2, q3, q4, q5⟩ := Discrete.probabilities_spec (fun w hw => (hpos w hw).le) hsum
  refine ⟨{ t with dice := Discrete.probabilities (t.newWeights events) }, ?_, rfl, rfl, rfl, rfl, ⟨?_, ?_, q3⟩, ?_⟩
  · unfold TreeGen.recalculate
    rw [if_neg hsz, if_neg hnd]
  · exact q4.trans n1
  · intro p hpm
    unfold Discrete.probabilities at hpm
    rw [hfold] at hpm
    obtain ⟨w, hw, rfl⟩ := List.mem_map.mp hpm
    exact div_pos (hpos w hw) hsum
  · intro i j hi hj
    simp only
    rw [q5 i, q5 j, n2 i hi, n2 j hj]
    have hl : 0 < (events.length : ℝ) := by exact_mod_cast List.length_pos_iff.mpr hne
    rw [Real.sqrt_div' _ hl.le, Real.sqrt_div' _ hl.le]
    ring

/-- C120: so the probabilities stay positive with sum one, and the density positive for every event, through any
number of re-weightings. -/
theorem reweighting_history (hist : List (List ((Nat → V4) × ℝ))) (t : TreeGen) {mass : ℝ} {m0 : Nat → ℝ}
    (hm : MadeOf mass m0 t.size t.gen) (hs : 1 ≤ t.size ∧ t.size ≤ 10)
    (hp : Probabilities t.gen t.dice) (he : ∀ events ∈ hist, ∃ e ∈ events, e.2 ≠ 0) :
    ∃ t', t.history hist = some t' ∧ t'.gen = t.gen ∧ Probabilities t'.gen t'.dice ∧
      ∀ ev, 0 < mixture t'.gen t'.dice ev ∧ t'.density ev = mixture t'.gen t'.dice ev := by
  induction hist generalizing t with
  | nil =>
    exact ⟨t, rfl, rfl, hp, fun ev => ⟨mixture_pos hp fun c hc => madeOf_pos hm hc ev, density_eq t hp.1 ev⟩⟩
  | cons events hist ih =>
    obtain ⟨t1, r1, r2, r3, r4, r5, r6, _⟩ := reweighting t hm hs hp events (he events (by simp))
    obtain ⟨t', h1, h2, h3, h4⟩ := ih t1 (by rw [r2, r3]; exact hm) (by rw [r3]; exact hs) r6
      (fun events h => he events (by simp [h]))
    refine ⟨t', ?_, h2.trans r2, h3, h4⟩
    unfold TreeGen.history
    rw [r1, Option.bind_some]
    exact h1

/-- C120: the probabilities are left as they are exactly when all chains have the same importance. -/
theorem reweighting_fixed_point (t : TreeGen) {mass : ℝ} {m0 : Nat → ℝ} (hm : MadeOf mass m0 t.size t.gen)
    (hs : 1 ≤ t.size ∧ t.size ≤ 10) (hp : Probabilities t.gen t.dice) (events : List ((Nat → V4) × ℝ))
    (he : ∃ e ∈ events, e.2 ≠ 0) :
    t.recalculate events = some t ↔
      ∀ c ∈ t.gen, ∀ d ∈ t.gen, importance t.gen t.dice events c = importance t.gen t.dice events d := by
  obtain ⟨t', r1, r2, r3, r4, r5, r6, r7⟩ := reweighting t hm hs hp events he
  have hip : ∀ c ∈ t.gen, 0 < importance t.gen t.dice events c := fun c hc =>
    importance_pos hp (fun c hc e _ => madeOf_pos hm hc e.1) he hc
  have hdp : ∀ (dice : List ℝ), Probabilities t.gen dice → ∀ i < t.gen.length, 0 < dice.getD i 0 := by
    intro dice hd i hi
    rw [getD_getElem _ (by have := hd.1; omega)]
    exact hd.2.1 _ (List.getElem_mem _)
  rw [r1]
  constructor
  · intro h
    injection h with h
    subst h
    intro c hc d hd
    obtain ⟨i, hi, rfl⟩ := List.getElem_of_mem hc
    obtain ⟨j, hj, rfl⟩ := List.getElem_of_mem hd
    have := r7 i j hi hj
    have hi' := hdp _ hp i hi
    have hj' := hdp _ hp j hj
    have h2 : √(importance t'.gen t'.dice events t'.gen[j]) = √(importance t'.gen t'.dice events t'.gen[i]) := by
      have hij : t'.dice.getD i 0 * t'.dice.getD j 0 ≠ 0 := (mul_pos hi' hj').ne'
      apply mul_left_cancel₀ hij
      linarith
    exact ((Real.sqrt_inj (hip _ hd).le (hip _ hc).le).mp h2).symm
  · intro h
    rw [r2] at r6
    have hprop : ∀ i j, i < t.gen.length → j < t.gen.length →
        t'.dice.getD i 0 * t.dice.getD j 0 = t'.dice.getD j 0 * t.dice.getD i 0 := by
      intro i j hi hj
      have := r7 i j hi hj
      rw [h _ (List.getElem_mem hj) _ (List.getElem_mem hi)] at this
      have hsq := Real.sqrt_pos.mpr (hip _ (List.getElem_mem hi))
      apply mul_right_cancel₀ hsq.ne'
      linarith
    have hsumD : ∀ (dice : List ℝ), dice.length = t.gen.length → dice.sum = ∑ i ∈ Finset.range t.gen.length, dice.getD i 0 := by
      intro dice hl
      rw [← hl]
      clear hl
      induction dice using List.reverseRecOn with
      | nil => simp
      | append_singleton xs x ih =>
        rw [List.sum_append, List.length_append, List.length_singleton, Finset.sum_range_succ, ih, List.sum_singleton]
        congr 1
        · apply Finset.sum_congr rfl
          intro i hi
          have := Finset.mem_range.mp hi
          simp [List.getElem?_append_left this]
        · simp
    have heq : t'.dice = t.dice := by
      apply List.ext_getElem (r6.1.trans hp.1.symm)
      intro i h1 h2
      have hi : i < t.gen.length := by have := hp.1; omega
      have e1 : ∑ j ∈ Finset.range t.gen.length, t'.dice.getD i 0 * t.dice.getD j 0 =
          ∑ j ∈ Finset.range t.gen.length, t'.dice.getD j 0 * t.dice.getD i 0 :=
        Finset.sum_congr rfl fun j hj => hprop i j hi (Finset.mem_range.mp hj)
      rw [← Finset.mul_sum, ← Finset.sum_mul, ← hsumD _ hp.1, ← hsumD _ r6.1, hp.2.2, r6.2.2, mul_one, one_mul,
        getD_getElem _ h1, getD_getElem _ h2] at e1
      exact e1
    congr 1
    cases t; cases t'
    simp only at r2 r3 r4 r5 heq ⊢
    rw [r2, r3, r4, r5, heq]

/-- Two decays of the cascade. -/
noncomputable def twoChains (junk : Nat → Node) (rndm : Option Draws) : Option TreeGen :=
  ofChains ⟨fun _ => 0, fun _ _ => 1 / 2, fun _ => 0, fun _ => 0, fun _ => 0⟩ 3
    [[Stack.make 3 4 (fun _ => 0) (cascade 1) junk, Stack.make 3 4 (fun _ => 0) (cascade 1) junk],
     [Stack.make 3 4 (fun _ => 0) (cascade 3) junk]] rndm

/-- The hypotheses of the theorems on mixtures are met by a generator with two cascades, one of them given twice, and it
can be re-weighted. -/
example (junk : Nat → Node) (rndm : Option Draws) : ∃ t, twoChains junk rndm = some t ∧ t.gen ≠ [] ∧ MadeOf 4 (fun _ => 0) t.size t.gen ∧
    1 ≤ t.size ∧ t.size ≤ 10 ∧ Probabilities t.gen t.dice ∧
    ∃ t', t.history [[(fun _ => ⟨0, 0, 0, 1⟩, 2)], [(fun _ => ⟨0, 0, 0, 1⟩, 0), (fun _ => ⟨0, 0, 1, 1⟩, 3)]] = some t' := by
  obtain ⟨t, h1, h2, h3, h4, h5, h6, h7⟩ := mixture_chains ⟨fun _ => 0, fun _ _ => 1 / 2, fun _ => 0, fun _ => 0, fun _ => 0⟩ 3
    [[Stack.make 3 4 (fun _ => 0) (cascade 1) junk, Stack.make 3 4 (fun _ => 0) (cascade 1) junk],
     [Stack.make 3 4 (fun _ => 0) (cascade 3) junk]] rndm (by simp)
  have hm : MadeOf 4 (fun _ => 0) t.size t.gen := by
    refine ⟨by simp [spare, h2], ?_⟩
    intro c hc
    have := h4 c hc
    simp only [List.flatten_cons, List.flatten_nil, List.append_nil, List.cons_append, List.nil_append, List.mem_cons,
      List.not_mem_nil, or_false] at this
    rw [h2]
    rcases this with rfl | rfl | rfl
    · exact ⟨_, junk, cascade_decay (by norm_num), rfl⟩
    · exact ⟨_, junk, cascade_decay (by norm_num), rfl⟩
    · exact ⟨_, junk, cascade_decay (by norm_num), rfl⟩
  have hne : t.gen ≠ [] := by
    obtain ⟨c, hc, _⟩ := h5 (Stack.make 3 4 (fun _ => 0) (cascade 1) junk) (by simp)
    exact List.ne_nil_of_mem hc
  obtain ⟨t', ht', _⟩ := reweighting_history [[(fun _ => ⟨0, 0, 0, 1⟩, 2)], [(fun _ => ⟨0, 0, 0, 1⟩, 0), (fun _ => ⟨0, 0, 1, 1⟩, 3)]]
    t hm (by omega) h6 (by
      intro events he
      simp only [List.mem_cons, List.not_mem_nil, or_false] at he
      rcases he with rfl | rfl
      · exact ⟨_, by simp; rfl, by norm_num⟩
      · exact ⟨(fun _ => ⟨0, 0, 1, 1⟩, 3), by simp, by norm_num⟩)
  exact ⟨t, h1, hne, hm, by omega, by omega, h6, t', ht'⟩

/-- C121: a generator made from one decay draws from the generator given, or from the global one when none is given; one
made from a list draws from the generator given.  With between one and ten products and some generator no event is returned
unfilled, and there is no crash while the numbers drawn are in [0, 1). -/
theorem generator_used_partial (global : Draws) (size : Nat) (hs : 1 ≤ size ∧ size ≤ 10) (t : TreeGen) :
    (∀ orderings rndm, ofChain global size orderings rndm = some t → t.rand = some (rndm.getD global) ∧ t.gen = orderings ∧
      Probabilities t.gen t.dice ∧ t.size = size) ∧
    (∀ chains r, ofChains global size chains (some r) = some t → t.rand = some r) ∧
    (∀ d, t.rand = some d → t.size = size → Probabilities t.gen t.dice → (∀ k, 0 ≤ d.dice k ∧ d.dice k < 1) → ∀ fuel ev0,
      t.makeEvent fuel ev0 ≠ .crash ∧ t.makeEvent fuel ev0 ≠ .unfilled) := by
  refine ⟨?_, ?_, ?_⟩
  · intro orderings rndm h
    unfold ofChain at h
    cases orderings with
    | nil => simp [initialiseWeights] at h
    | cons c cs =>
      simp only [initialiseWeights, Option.map_some, Option.some.injEq] at h
      subst h
      exact ⟨rfl, rfl, (uniform_probabilities (c :: cs) (by simp)).1, rfl⟩
  · intro chains r h
    unfold ofChains at h
    obtain ⟨t0, _, rfl⟩ := Option.map_eq_some_iff.mp h
    rfl
  · intro d hd hsz hp hdice fuel ev0
    have hsz' : ¬ (t.size = 0 ∨ 10 < t.size) := by omega
    have hall : ∀ k, ((Discrete.sample t.dice (d.dice k)).bind fun i => t.gen[i]?).isSome := by
      intro k
      obtain ⟨i, hi, hsi⟩ := (Discrete.discrete_sampling_exact t.dice (fun w hw => (hp.2.1 w hw).le)
        (by rw [hp.2.2]; exact one_pos)).1 (d.dice k) (hdice k).1 (hdice k).2
      rw [hsi, Option.bind_some, List.getElem?_eq_getElem (by have := hp.1; omega)]
      rfl
    unfold TreeGen.makeEvent
    rw [if_neg hsz']
    cases hg : t.gen with
    | nil =>
      have h3 := hp.2.2
      have h1 := hp.1
      rw [hg] at h1
      rw [List.length_eq_zero_iff.mp h1] at h3
      simp at h3
    | cons c cs =>
      rw [hg] at hall
      simp only [hd]
      split
      · exact ⟨by simp, by simp⟩
      · rename_i k ev hm
        rw [if_pos (fun j _ => hall j)]
        exact ⟨by simp, by simp⟩

/-- C121, what is not true: without a random generator of its own a generator made from a list of decays has
none at all, and asking it for an event crashes. -/
theorem no_generator_counterexample (global : Draws) (size : Nat) (hs : 1 ≤ size ∧ size ≤ 10) (chains : List (List Stack))
    (h : chains.flatten ≠ []) :
    ∃ t, ofChains global size chains none = some t ∧ t.rand = none ∧ ∀ fuel ev0, t.makeEvent fuel ev0 = .crash := by
  obtain ⟨t, h1, h2, _⟩ := mixture_chains global size chains none h
  have hr : t.rand = none := by
    unfold ofChains at h1
    obtain ⟨t0, _, rfl⟩ := Option.map_eq_some_iff.mp h1
    rfl
  refine ⟨t, h1, hr, ?_⟩
  intro fuel ev0
  unfold TreeGen.makeEvent
  rw [if_neg (by omega), hr]

/-- C121, what is not true: with more than ten products every event is returned as it was allocated, and re-weighting
reads outside a list. -/
theorem many_products_counterexample (t : TreeGen) (h : 10 < t.size) (fuel : Nat) (ev0 : Nat → V4) (events : List ((Nat → V4) × ℝ)) :
    t.makeEvent fuel ev0 = .unfilled ∧ t.recalculate events = none := by
  unfold TreeGen.makeEvent TreeGen.recalculate
  rw [if_pos (Or.inr h), if_pos (Or.inr h)]
  exact ⟨rfl, rfl⟩

/-- C121: destroying a generator releases each of its chains. -/
theorem release_once (used : List Nat) (ptrs : List Nat) (hn : ptrs.Nodup) (hu : used.Nodup) (hs : ∀ p ∈ ptrs, p ∈ used) :
    ∃ left, release used ptrs = some left ∧ ∀ p, p ∈ left ↔ p ∈ used ∧ p ∉ ptrs := by
  induction ptrs generalizing used with
  | nil => exact ⟨used, rfl, by simp⟩
  | cons p ps ih =>
    have hp : p ∈ used := hs p (by simp)
    have hn' := List.nodup_cons.mp hn
    obtain ⟨left, h1, h2⟩ := ih (used.erase p) hn'.2 (hu.erase p) (by
      intro q hq
      rw [hu.mem_erase_iff]
      exact ⟨fun h => hn'.1 (h ▸ hq), hs q (by simp [hq])⟩)
    refine ⟨left, by unfold release; rw [if_pos hp]; exact h1, ?_⟩
    intro q
    rw [h2 q, hu.mem_erase_iff]
    simp only [List.mem_cons, not_or]
    tauto

example : ∃ left, release [7, 3, 5] [3, 7] = some left ∧ ∀ p, p ∈ left ↔ p ∈ [7, 3, 5] ∧ p ∉ [3, 7] :=
  release_once _ _ (by decide) (by decide) (by decide)

/-- C121, what is not true: a copy of a generator, such as `Generator::phsp()` returns
(AmpGen/Generator.h:43), shares its chains, and after the copy is gone destroying the generator releases memory that is not
in use. -/
theorem copy_counterexample (used ptrs left : List Nat) (hn : ptrs.Nodup) (hu : used.Nodup) (hne : ptrs ≠ [])
    (h : release used ptrs = some left) : release left ptrs = none := by
  have hs : ∀ p ∈ ptrs, p ∈ used := by
    clear hn hne
    induction ptrs generalizing used with
    | nil => simp
    | cons p ps ih =>
      unfold release at h
      split at h
      · rename_i hp
        intro q hq
        rcases List.mem_cons.mp hq with rfl | hq
        · exact hp
        · exact List.mem_of_mem_erase (ih (used.erase p) (hu.erase p) h q hq)
      · simp at h
  obtain ⟨l', h1, h2⟩ := release_once used ptrs hn hu hs
  rw [h1] at h
  injection h with h
  subst h
  cases ptrs with
  | nil => exact absurd rfl hne
  | cons p ps =>
    unfold release
    rw [if_neg]
    rw [h2 p]
    simp

/-- A generator given one decay and no random generator makes an event with the global one. -/
example (junk : Nat → Node) : ∃ t ev g, ofChain ⟨fun _ => 0, fun _ _ => 1 / 2, fun _ => 0, fun _ => 0, fun _ => 0⟩ 3
    [Stack.make 3 4 (fun _ => 0) (cascade 1) junk] none = some t ∧ t.makeEvent 1 (fun _ => ⟨0, 0, 0, 0⟩) = .event ev g := by
  obtain ⟨t, ht⟩ : ∃ t, ofChain ⟨fun _ => 0, fun _ _ => 1 / 2, fun _ => 0, fun _ => 0, fun _ => 0⟩ 3
    [Stack.make 3 4 (fun _ => 0) (cascade 1) junk] none = some t := ⟨_, rfl⟩
  obtain ⟨g1, _, g3⟩ := generator_used_partial ⟨fun _ => 0, fun _ _ => 1 / 2, fun _ => 0, fun _ => 0, fun _ => 0⟩ 3 (by omega) t
  obtain ⟨r1, r2, r3, r4⟩ := g1 _ _ ht
  have := g3 _ r1 r4 r3 (fun _ => ⟨le_rfl, one_pos⟩) 1 (fun _ => ⟨0, 0, 0, 0⟩)
  refine ⟨t, ?_⟩
  cases hm : t.makeEvent 1 (fun _ => ⟨0, 0, 0, 0⟩) with
  | crash => exact absurd hm this.1
  | unfilled => exact absurd hm this.2
  | event ev g => exact ⟨ev, g, ht, rfl⟩
  | running =>
    exfalso
    unfold TreeGen.makeEvent at hm
    rw [if_neg (by omega), r1, r2] at hm
    simp only [Option.getD_none] at hm
    split at hm
    · rename_i hmk
      unfold AmpGen.DecayChain.makeEvent acceptLoop at hmk
      rw [if_neg] at hmk
      · simp at hmk
      · rw [zero_mul, not_lt]
        unfold Stack.weight
        exact Real.sqrt_nonneg _
    · split at hm <;> simp at hm

end AmpGen.DecayChain
