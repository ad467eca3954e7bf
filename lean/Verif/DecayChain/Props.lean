import Verif.DecayChain.LemmasD
import Mathlib.Algebra.BigOperators.Fin
/-
C43 and C53: events generated along decay chains.
-/
namespace AmpGen.DecayChain

open Classical
open AmpGen.PhaseSpace (V4 OnShell)

theorem massSq_eq (ev : Nat → V4) (fs : List Nat) : massSq ev fs = invMass ev fs := by
  rw [invMass_eq]
  simp only [massSq, total, X, Y, Z, E]
  ring

theorem accept_some {wmax : ℝ} {chain : Nat → Stack} {u : Nat → Nat → ℝ} {v : Nat → ℝ} : ∀ {fuel k0 k : Nat},
    acceptLoop wmax chain u v fuel k0 = some k → v k * wmax ≤ (chain k).weight (u k) ∧ k0 ≤ k ∧
      ∀ j, k0 ≤ j → j < k → (chain j).weight (u j) < v j * wmax := by
  intro fuel
  induction fuel with
  | zero => intro k0 k h; simp [acceptLoop] at h
  | succ fuel ih =>
    intro k0 k h
    unfold acceptLoop at h
    split at h
    · obtain ⟨h1, h2, h3⟩ := ih h
      refine ⟨h1, by omega, ?_⟩
      intro j hj hjk
      rcases Nat.eq_or_lt_of_le hj with rfl | hj
      · assumption
      · exact h3 j hj hjk
    · rw [Option.some.injEq] at h
      subst h
      exact ⟨not_lt.mp ‹_›, le_rfl, fun j h1 h2 => by omega⟩

/-- C43: an event generated from one or several decay chains, whatever the random numbers in (0,1) and whatever
the memory held before.  Its particles are on shell, their momenta add up to the top at rest, with its exact mass if
it is quasi-stable; the particles of every resonance have its exact mass if it is quasi-stable,
and a mass between the kinematic limits otherwise. -/
theorem decay_chain_event (N : Nat) (mass wm : ℝ) (m0 : Nat → ℝ) (chain : Nat → Stack) (u : Nat → Nat → ℝ)
    (v a b : Nat → ℝ) (ev0 ev : Nat → V4) (fuel k : Nat) (i : Info) (ta tb : Tree) (junk : Nat → Node)
    (hu : ∀ k j, 0 ≤ u k j ∧ u k j ≤ 1) (hv : ∀ k, 0 < v k) (ha : ∀ j, 0 ≤ a j ∧ a j ≤ 1) (hwm : 0 < wm)
    (hrun : makeEvent wm chain u v a b ev0 fuel = some (k, ev))
    (hd : Decay N mass m0 (.res i ta tb)) (hc : chain k = Stack.make N mass m0 (.res i ta tb) junk) :
    (∀ x < N, OnShell (m0 x) (ev x)) ∧
    (∃ M > 0, total ev (ta.leaves ++ tb.leaves) = ⟨0, 0, 0, M⟩ ∧ (i.quasi = true → M = i.mass) ∧
      (i.quasi = false → |M ^ 2 - i.mass ^ 2| ≤ 10 * (i.mass * i.width))) ∧
    ∀ j c d, ta.Has j c d ∨ tb.Has j c d →
      (j.quasi = true → massSq ev (c.leaves ++ d.leaves) = j.mass ^ 2) ∧
      (j.quasi = false → (c.low + d.low) ^ 2 ≤ massSq ev (c.leaves ++ d.leaves) ∧
        massSq ev (c.leaves ++ d.leaves) ≤ (spare N mass m0 + (c.low + d.low)) ^ 2) := by
  unfold makeEvent at hrun
  obtain ⟨k', hk', he⟩ := Option.map_eq_some_iff.mp hrun
  simp only [Prod.mk.injEq] at he
  obtain ⟨rfl, rfl⟩ := he
  obtain ⟨hacc, _, _⟩ := accept_some hk'
  have hw : 0 < (chain k').weight (u k') := lt_of_lt_of_le (mul_pos (hv k') hwm) hacc
  obtain ⟨ids, hch⟩ := make_chain hd junk
  have hcN : (chain k').N = N := by rw [hc]; rfl
  have hcm : (chain k').m0 = m0 := by rw [hc]; rfl
  rw [← hc] at hch
  have hd' : Decay (chain k').N mass (chain k').m0 (.res i ta tb) := by rw [hcN, hcm]; exact hd
  obtain ⟨hpos, hpl⟩ := chain_placed hch hd' (hu k') hw (u1 := a) (u2 := b) ha ev0
  set ev := fillFromState (chain k') ((chain k').state (u k')) a b ev0 with hev
  obtain ⟨p1, p2, p3⟩ := hpl
  rw [hcm] at p2
  have hperm := hch.perm
  obtain ⟨kt, l, r, A, B, hkt, hnode, hra, hrb, hids, hgt⟩ := hch.rep
  have hkt0 : kt = 0 := by omega
  subst hkt0
  have hstate : ∀ j, (chain k').state (u k') (j + (chain k').N) = ((chain k').nodes j).draw (u k' j) := by
    intro j
    unfold Stack.state
    rw [if_neg (by omega), Nat.add_sub_cancel]
  refine ⟨?_, ?_, ?_⟩
  · intro x hx
    exact p2 x (hd.leaves.mem_iff.mpr (List.mem_range.mpr hx))
  · refine ⟨√((chain k').state (u k') (chain k').N), Real.sqrt_pos.mpr hpos, p1, ?_, ?_⟩
    · intro hq
      obtain ⟨o1, _, o3, _⟩ := done_ok hd' (Tree.Has.here i ta tb) 0 l r
      have hs := hstate 0
      rw [Nat.zero_add, hnode] at hs
      have hk : (done (mass - ((List.range (chain k').N).map (chain k').m0).sum) 0 i ta tb l r).kind = .quasi := by
        simp [done, mkNode, hq]
      rw [hs]
      unfold Node.draw
      simp only [hk]
      rw [o3 hq]
      exact Real.sqrt_mul_self (hd.positive _ _ _ (Tree.Has.here i ta tb)).1
    · intro hq
      rw [Real.sq_sqrt hpos.le]
      obtain ⟨o1, _, _, _⟩ := done_ok hd' (Tree.Has.here i ta tb) 0 l r
      have hs := hstate 0
      rw [Nat.zero_add, hnode] at hs
      obtain ⟨d1, d2⟩ := draw_range o1 (hu k' 0).1 (hu k' 0).2
      rw [← hs] at d1 d2
      have hlo : (done (mass - ((List.range (chain k').N).map (chain k').m0).sum) 0 i ta tb l r).lo =
          i.mass * i.mass - i.mass * i.width * 10 := by
        unfold done mkNode; simp only [hq]; cases i.plain <;> simp
      have hhi : (done (mass - ((List.range (chain k').N).map (chain k').m0).sum) 0 i ta tb l r).hi =
          i.mass * i.mass + i.mass * i.width * 10 := by
        unfold done mkNode; simp only [hq]; cases i.plain <;> simp
      rw [hlo] at d1
      rw [hhi] at d2
      rw [abs_le]
      constructor <;> nlinarith
  · intro j c d hhas
    have hT : (Tree.res i ta tb).Has j c d := by
      rcases hhas with h | h
      · exact h.left
      · exact h.right
    have hkk : ∃ kk ∈ A ++ B, ∃ l r, (chain k').nodes kk =
        done (mass - ((List.range (chain k').N).map (chain k').m0).sum) kk j c d l r := by
      rcases hhas with h | h
      · obtain ⟨kk, h1, h2⟩ := hra.has h
        exact ⟨kk, by simp [h1], h2⟩
      · obtain ⟨kk, h1, h2⟩ := hrb.has h
        exact ⟨kk, by simp [h1], h2⟩
    obtain ⟨kk, hkin, l', r', hn⟩ := hkk
    have hm := p3 kk (by rw [hids]; exact List.mem_cons_of_mem _ hkin)
    have hne : kk ≠ 0 := by have := hgt kk hkin; omega
    rw [hn, hstate, hn] at hm
    have hfs : (done (mass - ((List.range (chain k').N).map (chain k').m0).sum) kk j c d l' r').lfs ++
      (done (mass - ((List.range (chain k').N).map (chain k').m0).sum) kk j c d l' r').rfs = c.leaves ++ d.leaves := rfl
    rw [hfs, ← massSq_eq] at hm
    obtain ⟨o1, _, o3, o4⟩ := done_ok hd' hT kk l' r'
    obtain ⟨d1, d2⟩ := draw_range o1 (hu k' kk).1 (hu k' kk).2
    rw [hm]
    constructor
    · intro hq
      have hk : (done (mass - ((List.range (chain k').N).map (chain k').m0).sum) kk j c d l' r').kind = .quasi := by
        simp [done, mkNode, hq]
      unfold Node.draw
      simp only [hk]
      rw [o3 hq]
      ring
    · intro hq
      obtain ⟨e1, e2⟩ := o4 hne hq
      rw [e1] at d1
      rw [e2] at d2
      rw [hcN, hcm] at d1 d2 ⊢
      exact ⟨d1, d2⟩

/-- A four-body decay with a quasi-stable and a broad resonance, and an event accepted for it. -/
example : Decay 4 5 (fun _ => 1 / 2) (.res ⟨5, 0, true, false⟩
    (.res ⟨2, 0, true, false⟩ (.leaf 2 (1 / 2)) (.leaf 0 (1 / 2)))
    (.res ⟨2, 1, false, false⟩ (.leaf 1 (1 / 2)) (.leaf 3 (1 / 2)))) := by
  refine ⟨by omega, ?_, ?_, ?_, ?_, ?_⟩
  · simp only [Tree.leaves]; decide
  · simp [Tree.MassesAre]
  · intro i; norm_num
  · simp [List.range_succ]; norm_num
  · intro i a b h
    cases h with
    | here => norm_num
    | left h => cases h with
      | here => norm_num
      | left h => cases h
      | right h => cases h
    | right h => cases h with
      | here => norm_num
      | left h => cases h
      | right h => cases h

/-- C53: the weight of a proposal never exceeds the chain's stated maximum. -/
theorem decay_chain_weight (N : Nat) (mass : ℝ) (m0 : Nat → ℝ) (t : Tree) (junk : Nat → Node) (u : Nat → ℝ)
    (hu : ∀ i, 0 ≤ u i ∧ u i ≤ 1) (hd : Decay N mass m0 t) :
    0 ≤ (Stack.make N mass m0 t junk).weight u ∧
    (Stack.make N mass m0 t junk).weight u ≤ (Stack.make N mass m0 t junk).rhoMax := by
  obtain ⟨ids, hch⟩ := make_chain hd junk
  refine ⟨by rw [weight_eq]; exact Real.sqrt_nonneg _, ?_⟩
  rw [make_rhoMax]
  exact weight_le hch hd hu

/-- C53: the density attached to the event is the density with which its masses were
drawn: a product with one factor for each decay, the factor is evaluated at the value drawn, and
its integral up to the value drawn from `u` is `u`, with larger numbers giving larger values.
(Numbers at which the tangent is infinite are left out.) -/
theorem decay_chain_density (N : Nat) (mass : ℝ) (m0 : Nat → ℝ) (t : Tree) (junk : Nat → Node) (u a b : Nat → ℝ)
    (ev0 : Nat → V4) (hu : ∀ i, 0 ≤ u i ∧ u i ≤ 1) (ha : ∀ j, 0 ≤ a j ∧ a j ≤ 1) (hd : Decay N mass m0 t)
    (hw : 0 < (Stack.make N mass m0 t junk).weight u) :
    let c := Stack.make N mass m0 t junk
    genPdf c (fillFromState c (c.state u) a b ev0) =
      ∏ i ∈ Finset.range (N - 1), (c.nodes i).pdf ((c.nodes i).draw (u i)) ∧
    ∀ i < N - 1, ∀ x, 0 ≤ x → x ≤ 1 → Real.cos (((c.nodes i).phi2 - (c.nodes i).phi1) * x) ≠ 0 →
      ((c.nodes i).kind = .bw ∨ (c.nodes i).kind = .flat) → (c.nodes i).lo < (c.nodes i).hi →
      ∫ s in (c.nodes i).lo..(c.nodes i).draw x, (c.nodes i).pdf s = x ∧
      ∀ y, x ≤ y → y ≤ 1 → Real.cos (((c.nodes i).phi2 - (c.nodes i).phi1) * y) ≠ 0 →
        (c.nodes i).draw x ≤ (c.nodes i).draw y := by
  intro c
  obtain ⟨ids, hch⟩ := make_chain hd junk
  obtain ⟨_, hpl⟩ := chain_placed hch hd hu hw (u1 := a) (u2 := b) ha ev0
  constructor
  · unfold genPdf
    have key : ∀ (L : List Nat) (g : ℝ), (∀ i ∈ L, i ∈ ids) →
        L.foldl (fun g i => g * (c.nodes i).pdf (invMass (fillFromState c (c.state u) a b ev0)
          ((c.nodes i).lfs ++ (c.nodes i).rfs))) g = g * (L.map fun i => (c.nodes i).pdf ((c.nodes i).draw (u i))).prod := by
      intro L
      induction L with
      | nil => intro g _; simp
      | cons k L ih =>
        intro g hL
        rw [List.foldl_cons, ih _ (fun i hi => hL i (by simp [hi])), hpl.mass k (hL k (by simp)), List.map_cons, List.prod_cons]
        have : c.state u (k + c.N) = (c.nodes k).draw (u k) := by
          unfold Stack.state
          rw [if_neg (by omega), Nat.add_sub_cancel]
        rw [this]
        ring
    rw [key _ _ (fun i hi => hch.perm.mem_iff.mpr hi), one_mul, Finset.prod_range]
    have : c.N - 1 = N - 1 := rfl
    rw [this, ← List.prod_ofFn]
    congr 1
    apply List.ext_getElem
    · simp
    · intro n h1 h2; simp
  · intro i hi x h0 h1 hx hk hlt
    obtain ⟨j, ta, tb, l, r, hh, hn, _, _⟩ := hch.rep.node i (hch.perm.mem_iff.mpr (List.mem_range.mpr hi))
    have hok := (done_ok hd hh i l r).1
    have hok' : (c.nodes i).Ok := by
      show ((Stack.make N mass m0 t junk).nodes i).Ok
      rw [hn]; exact hok
    refine ⟨pdf_integral hok' hk hlt h0 h1 hx, ?_⟩
    intro y hxy hy hyc
    exact draw_mono hok' h0 hxy hy hx hyc

theorem maxElement_min : ∀ (rest : List Stack) (first : Stack), ∀ c ∈ first :: rest,
    (maxElement (fun a b => decide (a.rhoMax > b.rhoMax)) first rest).rhoMax ≤ c.rhoMax := by
  intro rest
  induction rest with
  | nil => intro first c hc; simp only [List.mem_singleton] at hc; rw [hc]; exact le_rfl
  | cons x rest ih =>
    intro first c hc
    unfold maxElement
    by_cases h : first.rhoMax > x.rhoMax
    · rw [if_pos (by simpa using h)]
      rcases List.mem_cons.mp hc with rfl | hc
      · exact (ih x x (by simp)).trans h.le
      · exact ih x c hc
    · rw [if_neg (by simpa using h)]
      rcases List.mem_cons.mp hc with rfl | hc
      · exact ih c c (by simp)
      · rcases List.mem_cons.mp hc with rfl | hc
        · exact (ih first first (by simp)).trans (not_lt.mp h)
        · exact ih first c (by simp [hc])

/-- With one chain the mixture uses its maximum; with several it uses the smallest of theirs. -/
theorem mixture_maximum (c : Stack) (rest : List Stack) :
    wmax c [] = c.rhoMax ∧ (∀ d ∈ c :: rest, wmax c rest ≤ d.rhoMax) ∧ ∃ d ∈ c :: rest, wmax c rest = d.rhoMax := by
  refine ⟨rfl, maxElement_min rest c, ?_⟩
  unfold wmax
  have : ∀ (rest : List Stack) (c : Stack), maxElement (fun a b => decide (a.rhoMax > b.rhoMax)) c rest ∈ c :: rest := by
    intro rest
    induction rest with
    | nil => intro c; simp [maxElement]
    | cons x rest ih =>
      intro c
      unfold maxElement
      split
      · exact List.mem_cons_of_mem _ (ih x)
      · rcases List.mem_cons.mp (ih c) with h | h
        · rw [h]; simp
        · exact List.mem_cons_of_mem _ (List.mem_cons_of_mem _ h)
  exact ⟨_, this rest c, rfl⟩

/-- `4 → (M → 0 1) 2` with massless particles and a quasi-stable resonance of mass `M`. -/
def cascade (M : ℝ) : Tree := .res ⟨4, 0, true, false⟩ (.res ⟨M, 0, true, false⟩ (.leaf 0 0) (.leaf 1 0)) (.leaf 2 0)

theorem cascade_decay {M : ℝ} (h : 0 ≤ M) : Decay 3 4 (fun _ => 0) (cascade M) := by
  refine ⟨by omega, by simp only [cascade, Tree.leaves]; decide, by simp [cascade, Tree.MassesAre], fun _ => le_rfl,
    by simp [List.range_succ], ?_⟩
  intro i a b hh
  unfold cascade at hh
  cases hh with
  | here => norm_num
  | left hh => cases hh with
    | here => exact ⟨h, by simp⟩
    | left h => cases h
    | right h => cases h
  | right h => cases h

theorem cascade_weight {M : ℝ} (h0 : 0 < M) (h1 : M < 4) (junk : Nat → Node) (u : Nat → ℝ) :
    (Stack.make 3 4 (fun _ => 0) (cascade M) junk).weight u = (16 - M ^ 2) / 16 ∧
    (Stack.make 3 4 (fun _ => 0) (cascade M) junk).rhoMax = (16 - M ^ 2) / 16 := by
  have hM2 : M * M < 16 := by nlinarith
  have hM3 : 0 < M * M := by positivity
  have hsq : √(((16 - M ^ 2) / 16) * ((16 - M ^ 2) / 16)) = (16 - M ^ 2) / 16 :=
    Real.sqrt_mul_self (by nlinarith)
  constructor
  · rw [← hsq]
    simp [Stack.make, Stack.weight, Stack.state, cascade, build, child, mkNode, fsStep, List.range_succ, Function.update, Node.draw, rho2, hM3]
    have h16 : M * M < 4 * 4 := by nlinarith
    rw [if_pos h16]
    rw [if_neg]
    · simp only [if_pos h16, if_neg (not_lt.mpr (zero_le_one (α := ℝ)))]
      congr 1; ring
    · have : 1 - 2 * (M * M) / (4 * 4) + M * M * (M * M) / (4 * 4 * (4 * 4)) = (1 - M * M / 16) ^ 2 := by ring
      rw [this]; push Not; positivity
  · rw [← hsq]
    simp [Stack.make, lowOf, cascade, build, child, mkNode, List.range_succ, Function.update, rho2]
    congr 1
    ring

/-- C53, what is not true: with two chains, here through resonances of mass 1 and 3, the weights 15/16 and 7/16 of their
proposals are compared with the smaller maximum, so both are always accepted and the chains are not
populated in proportion to their weights. -/
theorem mixture_maximum_counterexample (junk : Nat → Node) (u : Nat → ℝ) (v : ℝ) (hv : v < 1) :
    let c1 := Stack.make 3 4 (fun _ => 0) (cascade 1) junk
    let c2 := Stack.make 3 4 (fun _ => 0) (cascade 3) junk
    Decay 3 4 (fun _ => 0) (cascade 1) ∧ Decay 3 4 (fun _ => 0) (cascade 3) ∧
    c1.weight u = 15 / 16 ∧ c2.weight u = 7 / 16 ∧ wmax c1 [c2] = 7 / 16 ∧
    acceptLoop (wmax c1 [c2]) (fun _ => c1) (fun _ => u) (fun _ => v) 1 0 = some 0 ∧
    acceptLoop (wmax c1 [c2]) (fun _ => c2) (fun _ => u) (fun _ => v) 1 0 = some 0 := by
  intro c1 c2
  have w1 : c1.weight u = 15 / 16 ∧ c1.rhoMax = 15 / 16 := by
    have := cascade_weight (M := 1) (by norm_num) (by norm_num) junk u
    norm_num at this ⊢; exact this
  have w2 : c2.weight u = 7 / 16 ∧ c2.rhoMax = 7 / 16 := by
    have := cascade_weight (M := 3) (by norm_num) (by norm_num) junk u
    norm_num at this ⊢; exact this
  have wm : wmax c1 [c2] = 7 / 16 := by
    have hgt : c1.rhoMax > c2.rhoMax := by rw [w1.2, w2.2]; norm_num
    unfold wmax maxElement maxElement
    rw [if_pos (by simpa using hgt)]
    exact w2.2
  refine ⟨cascade_decay (by norm_num), cascade_decay (by norm_num), w1.1, w2.1, wm, ?_, ?_⟩
  · unfold acceptLoop
    rw [if_neg]
    rw [wm, w1.1]; push Not; linarith
  · unfold acceptLoop
    rw [if_neg]
    rw [wm, w2.1]; push Not; linarith

/-- The hypotheses of the theorems on events are met: a chain that accepts its first proposal. -/
example (junk : Nat → Node) : 0 < (Stack.make 3 4 (fun _ => 0) (cascade 1) junk).weight (fun _ => 1 / 2) ∧
    ∃ ev, makeEvent (15 / 16) (fun _ => Stack.make 3 4 (fun _ => 0) (cascade 1) junk) (fun _ _ => 1 / 2) (fun _ => 1 / 2)
      (fun _ => 1 / 2) (fun _ => 1 / 2) (fun _ => ⟨7, 7, 7, 7⟩) 1 = some (0, ev) := by
  have w1 := (cascade_weight (M := 1) (by norm_num) (by norm_num) junk (fun _ => 1 / 2)).1
  refine ⟨by rw [w1]; norm_num, ?_⟩
  have h : acceptLoop (15 / 16) (fun _ => Stack.make 3 4 (fun _ => 0) (cascade 1) junk) (fun _ _ => 1 / 2) (fun _ => 1 / 2) 1 0 =
      some 0 := by
    unfold acceptLoop
    rw [if_neg (by rw [w1]; norm_num)]
  exact ⟨_, by unfold makeEvent; rw [h]; rfl⟩

end AmpGen.DecayChain
