import Verif.Recursive.Lemmas
/-
C107: events of decays in several steps.
-/
namespace AmpGen.Recursive

open AmpGen.Kinematics (P4)

/-- C107: whenever the final states of the chain are those of the event type, in any order, each event that is made has
a place for each final state whose name in the event type is that of the particle, different for different particles; the total momentum is that of the
first particle at rest; and the sum of the momenta at the places of the final states of any particle of the chain, intermediate or final, is that of a particle of its mass.
This is so for all random numbers and depths of the chain. -/
theorem cascade_event (mass : String → ℝ) (types : List String) (c : Chain) (hd : c.finals.Perm types) (hA : c.Allowed mass)
    (w : World) (hr : ∀ path, PhaseSpace.Variates (w.r path)) (rt : Nat → P4) (h : makeEvent mass w [] (build types c) = some rt) :
    ∃ s : List Nat, s.Perm (List.range types.length) ∧ s.map (fun i => types[i]?) = c.finals.map some ∧
      sum4 ((List.range types.length).map rt) = ⟨0, 0, 0, mass c.name⟩ ∧
      ∀ q ∈ c.particles s, OnShell (mass q.1) (sum4 (q.2.map rt)) := by
  obtain ⟨name, ds⟩ := c
  cases ds with
  | nil => simp [build, makeEvent] at h
  | cons d ds =>
    have hgood : (build types (.mk name (d :: ds))).Good mass :=
      good_of_allowed mass _ (build_proper types _) (by rw [build_shape]; exact hA)
    obtain ⟨s, h1, h2, h3⟩ := build_sinks types mass name d ds hgood hd
    obtain ⟨g, gs, hb⟩ := build_decay types name d ds
    have hshape := build_shape types (.mk name (d :: ds))
    rw [hb] at h h1 hgood hshape
    have hlen : s.length = (Chain.mk name (d :: ds)).finals.length := by rw [h2.length_eq, hd.length_eq, List.length_range]
    have hsn : s.Nodup := h2.nodup_iff.2 List.nodup_range
    have hsink : (leavesList (g :: gs)).map Prod.snd = s.map some := by
      have : (Gen.decay name (g :: gs)).leaves = leavesList (g :: gs) := by simp only [Gen.leaves]
      rw [← this, h1]
      exact List.map_snd_zip (by simp [hlen])
    have hF := makeEvent_spec hr name (g :: gs) [] rt hgood h s hsink hsn
    have hsh : shapeList (g :: gs) = d :: ds := by simpa [Gen.shape] using hshape
    rw [hsh] at hF
    have htot : sum4 (s.map rt) = ⟨0, 0, 0, mass name⟩ := hF.total
    refine ⟨s, h2, h3, ?_, ?_⟩
    · rw [Chain.name, ← htot]
      have hp := h2.map rt
      apply P4.ext' <;> exact ((hp.map _).sum_eq).symm
    · intro q hq
      simp only [Chain.particles, List.mem_cons] at hq
      rcases hq with rfl | hq
      · simp only [htot]
        have hm : 0 < mass name := lt_of_le_of_lt (List.sum_nonneg hgood.1.nonneg) hgood.1.threshold
        exact ⟨by simp, hm.le⟩
      · exact hF.shell q hq

theorem two_body_weight {m0 a b : ℝ} (hA : PhaseSpace.Allowed m0 [a, b]) {u : Nat → ℝ} (hu : ∀ k, 0 < u k ∧ u k < 1) :
    PhaseSpace.weight (PhaseSpace.setDecay m0 [a, b]).1 u = 1 := by
  obtain ⟨hg, _, hnt, hmass⟩ := PhaseSpace.setDecay_ready hA
  have hw : (PhaseSpace.setDecay m0 [a, b]).1.wtMax = 1 / PhaseSpace.q m0 a b := by
    have hth := hA.threshold
    simp at hth
    have hn : ¬ (m0 - a - b ≤ 0) := by linarith
    simp only [PhaseSpace.setDecay, List.length_cons, List.length_nil, List.range_succ, List.range_zero, List.nil_append, List.foldl_append, List.foldl_cons,
      List.foldl_nil, List.getD_cons_zero, List.getD_cons_succ, if_neg hn]
    simp [PhaseSpace.maxStep, List.range']
    congr 1; ring
  have hl := PhaseSpace.invMas_last hg hu
  have hz := PhaseSpace.invMas_zero hg u
  rw [PhaseSpace.weight_eq, hw]
  rw [hnt] at hl ⊢
  rw [hmass] at hz ⊢
  simp only [List.length_cons, List.length_nil] at hl ⊢
  rw [show (0 + 1 + 1 - 1 : Nat) = 1 from rfl, Finset.prod_range_one]
  rw [show (0 + 1 + 1 - 1 : Nat) = 1 from rfl] at hl
  rw [hl, hz]
  simp only [List.getD_cons_zero, List.getD_cons_succ, zero_add]
  have hth := hA.threshold
  simp only [List.sum_cons, List.sum_nil, add_zero] at hth
  have ha := hA.nonneg a (by simp)
  have hb := hA.nonneg b (by simp)
  have hq := PhaseSpace.q_pos (m := m0) (by linarith) ha hb hth
  rw [one_div, inv_mul_cancel₀ hq.ne']

theorem two_body_vertex {mass : String → ℝ} {w : World} (hr : ∀ path, PhaseSpace.Variates (w.r path)) (hf : 0 < w.fuel) (path : List Nat) {name : String}
    {nodes : List Gen} (h2 : nodes.length = 2) (hA : PhaseSpace.Allowed (mass name) (nodes.map fun g => mass g.name)) :
    ∃ evt, vertex mass w path name nodes = some evt ∧ ∀ p ∈ evt, ¬ (p.x = 0 ∧ p.y = 0 ∧ p.z = 0) := by
  obtain ⟨g1, g2, rfl⟩ : ∃ g1 g2, nodes = [g1, g2] := by
    match nodes, h2 with
    | [g1, g2], _ => exact ⟨g1, g2, rfl⟩
  simp only [List.map_cons, List.map_nil] at hA
  have hfill : ∃ l, PhaseSpace.fill (PhaseSpace.setDecay (mass name) ([mass g1.name, mass g2.name])).1 (w.junk path) (w.out path) (w.r path) w.fuel = some l := by
    obtain ⟨n, hn⟩ : ∃ n, w.fuel = n + 1 := ⟨w.fuel - 1, by omega⟩
    obtain ⟨hg, _, hnt, _⟩ := PhaseSpace.setDecay_ready hA
    have hacc : PhaseSpace.accept (PhaseSpace.setDecay (mass name) [mass g1.name, mass g2.name]).1 (w.r path) w.fuel 0 = some 0 := by
      rw [hn, PhaseSpace.accept, two_body_weight hA (PhaseSpace.draws_variates (hr path) 0), if_neg]
      exact not_lt.2 (hr path _).2.le
    unfold PhaseSpace.fill
    rw [hnt, hacc]
    simp
  obtain ⟨l, hl⟩ := hfill
  have hv : vertex mass w path name [g1, g2] = some (l.map fun v => ⟨v.x, v.y, v.z, v.e⟩) := by
    simp only [vertex, List.map_cons, List.map_nil, hl, Option.map_some]
  refine ⟨_, hv, ?_⟩
  obtain ⟨h1, h2⟩ := vertex_spec hr (by simpa using hA) hv
  generalize (l.map fun v => (⟨v.x, v.y, v.z, v.e⟩ : P4)) = evt at *
  obtain ⟨p1, p2, rfl⟩ : ∃ p1 p2, evt = [p1, p2] := by
    cases h1 with
    | cons _ h => cases h with
      | cons _ h => cases h; exact ⟨_, _, rfl⟩
  simp only [List.forall₂_cons, List.Forall₂.nil, and_true] at h1
  obtain ⟨s1, s2⟩ := h1
  have hth := hA.threshold
  simp only [List.sum_cons, List.sum_nil, add_zero] at hth
  have ha := hA.nonneg (mass g1.name) (by simp)
  have hb := hA.nonneg (mass g2.name) (by simp)
  simp only [sum4, List.map_cons, List.map_nil, List.sum_cons, List.sum_nil, add_zero, P4.mk.injEq] at h2
  obtain ⟨hx, hy, hz, hE⟩ := h2
  have hpp : p1.x ^ 2 + p1.y ^ 2 + p1.z ^ 2 = p2.x ^ 2 + p2.y ^ 2 + p2.z ^ 2 := by
    have e1 : p1.x = -p2.x := by linarith
    have e2 : p1.y = -p2.y := by linarith
    have e3 : p1.z = -p2.z := by linarith
    rw [e1, e2, e3]; ring
  have key : ¬ (p1.x ^ 2 + p1.y ^ 2 + p1.z ^ 2 = 0) := by
    intro h0
    have e1 : p1.E = mass g1.name := by
      have := s1.1
      rw [h0, zero_add] at this
      exact (sq_eq_sq₀ s1.2 ha).1 this
    have e2 : p2.E = mass g2.name := by
      have := s2.1
      rw [← hpp, h0, zero_add] at this
      exact (sq_eq_sq₀ s2.2 hb).1 this
    linarith
  intro p hp h0
  simp only [List.mem_cons, List.not_mem_nil, or_false] at hp
  rcases hp with rfl | rfl
  · exact key (by rw [h0.1, h0.2.1, h0.2.2]; norm_num)
  · exact key (by rw [hpp, h0.1, h0.2.1, h0.2.2]; norm_num)

mutual
theorem two_body_returns {mass : String → ℝ} {w : World} (hr : ∀ path, PhaseSpace.Variates (w.r path)) (hf : 0 < w.fuel) :
    ∀ (name : String) (nodes : List Gen) (path : List Nat), (Gen.decay name nodes).Good mass → (Gen.decay name nodes).shape.TwoBody →
    ∃ rt, makeEvent mass w path (.decay name nodes) = some rt
  | name, [], path, hg, _ => by
    have := hg.1.bodies
    simp at this
  | name, g :: gs, path, hg, h2 => by
    simp only [Gen.shape, shapeList, Chain.TwoBody] at h2
    obtain ⟨hl, hd, hds⟩ := h2
    have hlen : (g :: gs).length = 2 := by
      have : (shapeList gs).length = gs.length := by
        have := congrArg List.length (shapeList_map gs mass)
        simpa using this
      rw [List.length_cons, ← this, hl]
    obtain ⟨evt, hv, hp⟩ := two_body_vertex hr hf path hlen hg.1
    have hF := (vertex_spec hr hg.1 hv).1
    rw [makeEvent, hv]
    exact two_body_fills hr hf (g :: gs) path 0 evt _ hg.2 (by simp only [shapeList, TwoBodyList]; exact ⟨hd, hds⟩) hF.length_eq hp
theorem two_body_fills {mass : String → ℝ} {w : World} (hr : ∀ path, PhaseSpace.Variates (w.r path)) (hf : 0 < w.fuel) :
    ∀ (gs : List Gen) (path : List Nat) (i : Nat) (ps : List P4) (rt0 : Nat → P4), GoodList mass gs → TwoBodyList (shapeList gs) →
    gs.length = ps.length → (∀ p ∈ ps, ¬ (p.x = 0 ∧ p.y = 0 ∧ p.z = 0)) → ∃ rt, fillNodes mass w path i gs ps rt0 = some rt
  | [], path, i, ps, rt0, _, _, hl, hp => by rw [fillNodes]; exact ⟨_, rfl⟩
  | .leaf name sink :: gs, path, i, [], rt0, hg, ht, hl, hp => by simp at hl
  | .leaf name sink :: gs, path, i, p :: ps, rt0, hg, ht, hl, hp => by
    rw [fillNodes]
    exact two_body_fills hr hf gs path (i + 1) ps _ hg.2 (by rw [shapeList, TwoBodyList] at ht; exact ht.2) (by simpa using hl)
      fun q hq => hp q (List.mem_cons_of_mem _ hq)
  | .decay name nodes :: gs, path, i, [], rt0, hg, ht, hl, hp => by simp at hl
  | .decay name nodes :: gs, path, i, p :: ps, rt0, hg, ht, hl, hp => by
    rw [shapeList, TwoBodyList] at ht
    obtain ⟨evt, hev⟩ := two_body_returns hr hf name nodes (i :: path) hg.1 ht.1
    rw [fillNodes, hev]
    simp only
    rw [if_neg (hp p List.mem_cons_self)]
    exact two_body_fills hr hf gs path (i + 1) ps _ hg.2 ht.2 (by simpa using hl)
      fun q hq => hp q (List.mem_cons_of_mem _ hq)
end

/-- C107: chains of two-body decays always give an event, at the first attempt of each decay: no particle that decays is at rest. -/
theorem cascade_two_body_returns (mass : String → ℝ) (types : List String) (c : Chain) (hd : ∀ name, c ≠ .mk name []) (hA : c.Allowed mass) (h2 : c.TwoBody)
    (w : World) (hr : ∀ path, PhaseSpace.Variates (w.r path)) (hf : 0 < w.fuel) : ∃ rt, makeEvent mass w [] (build types c) = some rt := by
  obtain ⟨name, ds⟩ := c
  cases ds with
  | nil => exact absurd rfl (hd name)
  | cons d ds =>
    have hgood : (build types (.mk name (d :: ds))).Good mass :=
      good_of_allowed mass _ (build_proper types _) (by rw [build_shape]; exact hA)
    obtain ⟨g, gs, hb⟩ := build_decay types name d ds
    have hshape := build_shape types (.mk name (d :: ds))
    rw [hb] at hgood hshape ⊢
    exact two_body_returns hr hf name (g :: gs) [] hgood (by rw [hshape]; exact h2)

/-- The chain B → D pi, D → K pi, of an event type with the particles in another order. -/
def sampleChain : Chain := .mk "B" [.mk "D" [.mk "K" [], .mk "pi" []], .mk "pi" []]

noncomputable def sampleMass (s : String) : ℝ := if s = "B" then 5 else if s = "D" then 2 else if s = "K" then 1 / 2 else 1 / 10

theorem sample_allowed : sampleChain.Allowed sampleMass := by
  simp only [sampleChain, Chain.Allowed, AllowedList, and_true]
  refine ⟨⟨?_, by simp, by simp, ?_⟩, ⟨?_, by simp, by simp, ?_⟩⟩
  · simp [Chain.name, sampleMass]
  · simp [Chain.name, sampleMass]; norm_num
  · simp [Chain.name, sampleMass]
  · simp [Chain.name, sampleMass]; norm_num

example (w : World) (hr : ∀ path, PhaseSpace.Variates (w.r path)) (hf : 0 < w.fuel) : sampleChain.finals.Perm ["pi", "pi", "K"] ∧ sampleChain.Allowed sampleMass ∧
    ∃ rt, makeEvent sampleMass w [] (build ["pi", "pi", "K"] sampleChain) = some rt := by
  refine ⟨by decide, sample_allowed, cascade_two_body_returns _ _ _ (by simp [sampleChain]) sample_allowed ?_ w hr hf⟩
  simp [sampleChain, Chain.TwoBody, TwoBodyList]

example : sampleChain.particles [2, 0, 1] = [("B", [2, 0, 1]), ("D", [2, 0]), ("K", [2]), ("pi", [0]), ("pi", [1])] := by decide

end AmpGen.Recursive
