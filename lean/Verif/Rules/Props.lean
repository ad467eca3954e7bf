import Verif.Rules.Samples
import Mathlib.Algebra.BigOperators.Group.List.Basic
import Mathlib.Tactic.NormNum
/-
**C37**: the expansion of amplitudes.
-/
namespace AmpGen.Particle.Rules
open AmpGen.Strings AmpGen.PDG AmpGen.PDG.Spec AmpGen.Particle AmpGen.Particle.Spec AmpGen.Particle.Rules.Spec

variable {K : Type} [Field K] [LinearOrder K] {V : Type}

/-- The total coupling is the product of the couplings. -/
theorem total_coupling [CommMonoid V] (cs : List (Rule K V)) : totalValue cs = (cs.map fun r => r.value).prod := by
  have : ∀ (l : List (Rule K V)) (a : V), l.foldl (fun prod c => prod * c.value) a = a * (l.map fun r => r.value).prod := by
    intro l
    induction l with
    | nil => intro a; simp
    | cons r l ih => intro a; rw [List.foldl_cons, ih, List.map_cons, List.prod_cons, mul_assoc]
  unfold totalValue
  rw [this, one_mul]

/-- **C37**. Rules without cycles (there are at most `N` decays in any cascade), of which all are proper descriptors of decays, and for which no particle with rules is mentioned twice in a cascade or comes with modifiers: the expansion
of an amplitude ends. Its result are the complete cascades, up to the order of the decay products and modifiers without effect, with the product of the couplings of the decays in the cascade: each element of the result is such a
cascade, each such cascade is in the result, and different elements of the result differ in the decay of some particle. It does not depend on the order in which particles of the final state are listed.

Missing: with repeated intermediate states, with names that contain other names, or with modifiers of particles that are to be expanded the claim fails, see below. -/
theorem expand_cascades_partial [CommMonoid V] {env : Env K} (he : Unambiguous env) (rules : List (Rule K V)) (hnd : rules.Nodup) (hrules : ∀ r ∈ rules, Proper env r) (c : Rule K V) (hc : Proper env c)
    (order : List (Tree K) → List (Tree K)) (horder : ∀ l, (order l).Perm l) (N : Nat) (hN : ∀ u cs, Cascade rules c.particle u cs → cs.length ≤ N)
    (honce : ∀ u cs, Cascade rules c.particle u cs → Once rules u ∧ Bare rules u) (fuel : Nat) (hf : N + 4 ≤ fuel) :
    ∃ rt, expand env order rules fuel c = some rt ∧
      (∀ x ∈ rt, ∃ u cs, Cascade rules c.particle u cs ∧ Complete rules u ∧ Alike u x.1 ∧ x.2.Perm (c :: cs) ∧ totalValue x.2 = c.value * (cs.map fun r => r.value).prod) ∧
      (∀ u cs, Cascade rules c.particle u cs → Complete rules u → ∃ x ∈ rt, Alike u x.1 ∧ x.2.Perm (c :: cs)) ∧
      rt.Pairwise (fun x y => ∃ r ∈ rules, ∃ r' ∈ rules, r ≠ r' ∧ r.particle.data.name = r'.particle.data.name ∧ r ∈ x.2 ∧ r' ∈ y.2) := by
  obtain ⟨rt, h1, h2, h3, h4⟩ := loop_spec he hnd hrules horder hc hN honce fuel 0 [(c.particle, [c])] (by omega) (by omega)
    (by
      intro x hx
      rw [List.mem_singleton] at hx
      subst hx
      exact ⟨proper_good hc, c.particle, [], cascade_refl _ _, alike_refl _, List.Perm.refl _⟩)
    (by
      intro u cs hu hcu
      exact ⟨_, List.mem_singleton.2 rfl, c.particle, [], cs, cascade_refl _ _, alike_refl _, hu, List.Perm.refl _, List.Perm.refl _⟩)
    (List.pairwise_singleton _ _)
    (by
      intro x hx _
      rw [List.mem_singleton] at hx
      subst hx
      rfl)
  refine ⟨rt, h1, ?_, ?_, h4⟩
  · intro x hx
    obtain ⟨⟨_, u, cs, g1, g2, g3⟩, hcan⟩ := h2 x hx
    have hcomp := not_canExpand (alike_decays g2 (cascade_decays g1 hc.decays)) hcan
    refine ⟨u, cs, g1, complete_alike u g2 hcomp, g2, g3, ?_⟩
    rw [total_coupling, (g3.map fun r => r.value).prod_eq, List.map_cons, List.prod_cons]
  · intro u cs hu hcu
    obtain ⟨x, hx, v, cs1, cs2, g1, g2, g3, g4, g5⟩ := h3 u cs hu hcu
    obtain ⟨⟨_, _, _, k1, k2, _⟩, hcan⟩ := h2 x hx
    have hcomp := complete_alike v g2 (not_canExpand (alike_decays k2 (cascade_decays k1 hc.decays)) hcan)
    obtain ⟨e1, e2⟩ := complete_cascade g3 hcomp
    subst e1 e2
    refine ⟨x, hx, g2, g4.trans ?_⟩
    rw [List.append_nil] at g5
    exact g5.cons c

/-- The rules for the illustrations: a decay to two resonances, of which the first decays in two ways. -/
def rulesA : Option (List (Rule ℚ ℚ)) := sampleRules sampleEnv [("D0{K*(892)bar0,rho(770)0}", 2), ("K*(892)bar0{K-,pi+}", 3), ("K*(892)bar0[LASS]{K-,pi+}", 7), ("rho(770)0{pi+,pi-}", 5)]

/-- The assumptions hold for a decay to two resonances, of which the first decays in two ways; there are two complete cascades. -/
example : ∃ (rules : List (Rule ℚ ℚ)) (c : Rule ℚ ℚ), Unambiguous sampleEnv ∧ rules.Nodup ∧ (∀ r ∈ rules, Proper sampleEnv r) ∧ Proper sampleEnv c ∧ (∀ u cs, Cascade rules c.particle u cs → cs.length ≤ 2) ∧
    (∀ u cs, Cascade rules c.particle u cs → Once rules u ∧ Bare rules u) ∧
    (∃ u cs u' cs', Cascade rules c.particle u cs ∧ Complete rules u ∧ (cs.map fun r => r.value).prod = 15 ∧ Cascade rules c.particle u' cs' ∧ Complete rules u' ∧ (cs'.map fun r => r.value).prod = 35) := by
  have h : (match rulesA with
      | some (c :: rules) => decide (rules.map fun r => r.name).Nodup && decide (c.name = "D0{K*(892)bar0,rho(770)0}".toList) && isProper sampleEnv c && (rules.all fun r => isProper sampleEnv r) &&
        decide (rules.map (fun r => r.name) = ["K*(892)bar0{K-,pi+}".toList, "K*(892)bar0[LASS]{K-,pi+}".toList, "rho(770)0{pi+,pi-}".toList]) &&
        (match allCascades rules 4 c.particle with
          | some l => (l.all fun x => isOnce rules x.1 && isBare rules x.1 && decide (x.2.length ≤ 2)) && (l.any fun x => isComplete rules x.1 && decide ((x.2.map fun r => r.value).prod = 15)) &&
            (l.any fun x => isComplete rules x.1 && decide ((x.2.map fun r => r.value).prod = 35))
          | none => false)
      | _ => false) = true := by decide +kernel
  have hreads : ∀ l, rulesA = some l → ∀ r ∈ l, sampleEnv.ofDescriptor r.name = some r.particle := by
    intro l hl r hr
    exact sampleRules_reads hl r hr
  split at h
  · rename_i c rules hr
    simp only [Bool.and_eq_true, decide_eq_true_eq, List.all_eq_true] at h
    obtain ⟨⟨⟨⟨⟨h1, h2⟩, h3⟩, h4⟩, h5⟩, h6⟩ := h
    have hshape : ∀ r ∈ rules, Shape '{' '}' ',' r.name := by
      intro r hr
      have : r.name ∈ rules.map fun r => r.name := List.mem_map_of_mem hr
      rw [h5] at this
      simp only [List.mem_cons, List.not_mem_nil, or_false] at this
      rcases this with e | e | e
      · rw [e]; exact shape_two "K*(892)bar0".toList "K-".toList "pi+".toList (by unfold NoneOf; decide) (by unfold NoneOf; decide) (by unfold NoneOf; decide)
      · rw [e]; exact shape_two "K*(892)bar0[LASS]".toList "K-".toList "pi+".toList (by unfold NoneOf; decide) (by unfold NoneOf; decide) (by unfold NoneOf; decide)
      · rw [e]; exact shape_two "rho(770)0".toList "pi+".toList "pi-".toList (by unfold NoneOf; decide) (by unfold NoneOf; decide) (by unfold NoneOf; decide)
    split at h6
    · rename_i l hl
      simp only [Bool.and_eq_true, decide_eq_true_eq, List.all_eq_true, List.any_eq_true] at h6
      obtain ⟨⟨h6, ⟨⟨u, cs⟩, h7, h8, h9⟩⟩, ⟨⟨u', cs'⟩, h10, h11, h12⟩⟩ := h6
      refine ⟨rules, c, sampleEnv_unambiguous, List.Nodup.of_map _ h1, fun r hr' => isProper_spec (hshape r hr') (hreads _ hr r (List.mem_cons_of_mem _ hr')) (h4 r hr'),
        isProper_spec (by rw [h2]; exact shape_two "D0".toList "K*(892)bar0".toList "rho(770)0".toList (by unfold NoneOf; decide) (by unfold NoneOf; decide) (by unfold NoneOf; decide)) (hreads _ hr c List.mem_cons_self) h3, ?_, ?_,
        u, cs, u', cs', allCascades_mem _ _ _ hl _ _ h7, isComplete_spec h8, h9, allCascades_mem _ _ _ hl _ _ h10, isComplete_spec h11, h12⟩
      · intro u cs hu
        exact (h6 _ (mem_allCascades _ _ _ hl u cs hu)).2
      · intro u cs hu
        have := (h6 _ (mem_allCascades _ _ _ hl u cs hu)).1
        exact ⟨isOnce_spec this.1, isBare_spec this.2⟩
    · simp at h6
  · simp at h

/-- **C37**, counterexample: an intermediate state that occurs twice. Both are replaced by the same decay, and its coupling is counted once: what comes out is not a cascade with its couplings, and the cascade in which the two states
decay differently is missing. -/
theorem expand_repeated_counterexample : ∃ (rules : List (Rule ℚ ℚ)) (c : Rule ℚ ℚ) (rt : List (Tree ℚ × List (Rule ℚ ℚ))), (∀ r ∈ c :: rules, sampleEnv.ofDescriptor r.name = some r.particle) ∧
    c.name = "D0{rho(770)0,rho(770)0}".toList ∧ rules.map (fun r => r.name) = ["rho(770)0{pi+,pi-}".toList, "rho(770)0{K+,K-}".toList] ∧ expand sampleEnv id rules 10 c = some rt ∧
    (∀ x ∈ rt, ¬ ∃ u cs, Cascade rules c.particle u cs ∧ Complete rules u ∧ x.2.Perm (c :: cs)) ∧
    (∃ u cs, Cascade rules c.particle u cs ∧ Complete rules u ∧ ¬ ∃ x ∈ rt, x.1.uniqueString = u.uniqueString) := by
  have h : (match sampleRules sampleEnv [("D0{rho(770)0,rho(770)0}", 2), ("rho(770)0{pi+,pi-}", 5), ("rho(770)0{K+,K-}", 7)] with
      | some (c :: rules) => decide (c.name = "D0{rho(770)0,rho(770)0}".toList) && decide (rules.map (fun r => r.name) = ["rho(770)0{pi+,pi-}".toList, "rho(770)0{K+,K-}".toList]) &&
        (match expand sampleEnv id rules 10 c with
          | some rt => (match allCascades rules 4 c.particle with
            | some l => (rt.all fun x => l.all fun y => canExpand rules y.1 || decide (x.2.length ≠ y.2.length + 1)) &&
              (l.any fun y => isComplete rules y.1 && rt.all fun x => decide (x.1.uniqueString ≠ y.1.uniqueString))
            | none => false)
          | none => false)
      | _ => false) = true := by decide +kernel
  split at h
  · rename_i c rules hr
    simp only [Bool.and_eq_true, decide_eq_true_eq] at h
    obtain ⟨⟨h1, h2⟩, h3⟩ := h
    split at h3
    · rename_i rt hrt
      split at h3
      · rename_i l hl
        simp only [Bool.and_eq_true, Bool.or_eq_true, decide_eq_true_eq, List.all_eq_true, List.any_eq_true] at h3
        obtain ⟨h3, ⟨u, cs⟩, h4, h5, h6⟩ := h3
        refine ⟨rules, c, rt, sampleRules_reads hr, h1, h2, hrt, ?_, u, cs, allCascades_mem _ _ _ hl _ _ h4, isComplete_spec h5, ?_⟩
        · rintro x hx ⟨u, cs, g1, g2, g3⟩
          rcases h3 x hx _ (mem_allCascades _ _ _ hl u cs g1) with h | h
          · rw [complete_final g2] at h; simp at h
          · exact h (by rw [g3.length_eq, List.length_cons])
        · rintro ⟨x, hx, e⟩
          exact h6 x hx e
      · simp at h3
    · simp at h3
  · simp at h

/-- The sample with the doubly charged Delta resonance. -/
def deltaEnv : Env ℚ :=
  let p := sampleProps 2224 "Delta(1232)" 'F' 2 "++" 1232 117 3 1 "uuu"
  { sampleEnv with db := makeMappings (sampleList ++ [p, p.anti]) }

/-- **C37**, counterexample: the name of one particle is contained in the name of another, and only the first has rules. The other is replaced too: by another particle, with other charge. -/
theorem expand_contained_counterexample : ∃ (rules : List (Rule ℚ ℚ)) (c : Rule ℚ ℚ) (x : Tree ℚ × List (Rule ℚ ℚ)), (∀ r ∈ c :: rules, deltaEnv.ofDescriptor r.name = some r.particle) ∧
    c.name = "D0{Delta(1232)++,Delta(1232)+}".toList ∧ rules.map (fun r => r.name) = ["Delta(1232)+{K+,pi-}".toList] ∧ expand deltaEnv id rules 10 c = some [x] ∧
    (c.particle.daughters.any fun t => decide (t.data.props.charge = 2)) = true ∧ (x.1.daughters.any fun t => decide (t.data.props.charge = 2)) = false := by
  have h : (match sampleRules deltaEnv [("D0{Delta(1232)++,Delta(1232)+}", 2), ("Delta(1232)+{K+,pi-}", 5)] with
      | some (c :: rules) => decide (c.name = "D0{Delta(1232)++,Delta(1232)+}".toList) && decide (rules.map (fun r => r.name) = ["Delta(1232)+{K+,pi-}".toList]) &&
        (match expand deltaEnv id rules 10 c with
          | some [x] => (c.particle.daughters.any fun t => decide (t.data.props.charge = 2)) && !(x.1.daughters.any fun t => decide (t.data.props.charge = 2))
          | _ => false)
      | _ => false) = true := by decide +kernel
  split at h
  · rename_i c rules hr
    simp only [Bool.and_eq_true, decide_eq_true_eq] at h
    obtain ⟨⟨h1, h2⟩, h3⟩ := h
    split at h3
    · rename_i x hx
      rw [Bool.and_eq_true] at h3
      exact ⟨rules, c, x, sampleRules_reads hr, h1, h2, hx, h3.1, by simpa using h3.2⟩
    · simp at h3
  · simp at h

/-- **C37**, counterexample: the lineshape that is given for a particle in the amplitude is lost when the particle is replaced by its decay. -/
theorem expand_modifier_counterexample : ∃ (rules : List (Rule ℚ ℚ)) (c : Rule ℚ ℚ) (x : Tree ℚ × List (Rule ℚ ℚ)), (∀ r ∈ c :: rules, sampleEnv.ofDescriptor r.name = some r.particle) ∧
    c.name = "D0{K*(892)bar0[LASS],rho(770)0{pi+,pi-}}".toList ∧ rules.map (fun r => r.name) = ["K*(892)bar0{K-,pi+}".toList] ∧ expand sampleEnv id rules 10 c = some [x] ∧
    x.1.uniqueString = some "D0{K*(892)bar0{K-,pi+},rho(770)0{pi+,pi-}}".toList ∧ ∀ d ∈ x.1.nodes, d.lineshape ≠ "LASS".toList := by
  have h : (match sampleRules sampleEnv [("D0{K*(892)bar0[LASS],rho(770)0{pi+,pi-}}", 2), ("K*(892)bar0{K-,pi+}", 5)] with
      | some (c :: rules) => decide (c.name = "D0{K*(892)bar0[LASS],rho(770)0{pi+,pi-}}".toList) && decide (rules.map (fun r => r.name) = ["K*(892)bar0{K-,pi+}".toList]) &&
        (match expand sampleEnv id rules 10 c with
          | some [x] => decide (x.1.uniqueString = some "D0{K*(892)bar0{K-,pi+},rho(770)0{pi+,pi-}}".toList) && x.1.nodes.all fun d => decide (d.lineshape ≠ "LASS".toList)
          | _ => false)
      | _ => false) = true := by decide +kernel
  split at h
  · rename_i c rules hr
    simp only [Bool.and_eq_true, decide_eq_true_eq] at h
    obtain ⟨⟨h1, h2⟩, h3⟩ := h
    split at h3
    · rename_i x hx
      simp only [Bool.and_eq_true, decide_eq_true_eq, List.all_eq_true] at h3
      exact ⟨rules, c, x, sampleRules_reads hr, h1, h2, hx, h3.1, h3.2⟩
    · simp at h3
  · simp at h

/-- When the replacement contains the text again, the replacement never ends. -/
theorem replace_forever {pat rep : Str} (hrep : pat <:+: rep.drop pat.length) : ∀ (fuel : Nat) (output : Str) (start : Nat), start ≤ output.length → pat <:+: output.drop start → replaceLoop pat rep fuel output start = none
  | 0, _, _, _, _ => rfl
  | fuel + 1, output, start, hs, h => by
    rw [replaceLoop]
    have hle : pat.length ≤ rep.length ∨ pat = [] := by
      by_cases hp : pat = []
      · exact Or.inr hp
      · left
        by_contra hc
        have := hrep.length_le
        rw [List.length_drop] at this
        have : 0 < pat.length := List.length_pos_iff.2 hp
        omega
    cases hf : find output pat start with
    | none =>
      exfalso
      unfold find at hf
      rw [if_pos hs] at hf
      exact findAux_infix hf h
    | some pos =>
      have hb := find_bounds hf
      have hlt : (output.take pos).length = pos := by rw [List.length_take]; omega
      refine replace_forever hrep fuel _ _ ?_ ?_
      · simp only [List.length_append, hlt]
        rcases hle with h | h
        · omega
        · rw [h]; simp; omega
      · rw [List.append_assoc, List.drop_append, hlt, List.drop_eq_nil_of_le (by omega), List.nil_append, Nat.add_sub_cancel_left, List.drop_append]
        obtain ⟨a, b, e⟩ := hrep
        exact ⟨a, b ++ List.drop (pat.length - rep.length) (output.drop (pos + pat.length)), by rw [← e]; simp⟩

/-- **C37**, counterexample: with a rule in which the decaying particle occurs among its own decay products the expansion never ends, whatever the order of the particles. -/
theorem expand_cyclic_counterexample : ∃ (rules : List (Rule ℚ ℚ)) (c : Rule ℚ ℚ), (∀ r ∈ c :: rules, sampleEnv.ofDescriptor r.name = some r.particle) ∧ c.name = "D0{rho(770)0,pi+,pi-}".toList ∧
    rules.map (fun r => r.name) = ["rho(770)0{rho(770)0,pi+,pi-}".toList] ∧ ∀ (order : List (Tree ℚ) → List (Tree ℚ)), (∀ l, (order l).Perm l) → ∀ fuel, expand sampleEnv order rules fuel c = none := by
  have h : (match sampleRules sampleEnv [("D0{rho(770)0,pi+,pi-}", 2), ("rho(770)0{rho(770)0,pi+,pi-}", 5)] with
      | some (c :: rules) => decide (c.name = "D0{rho(770)0,pi+,pi-}".toList) && decide (rules.map (fun r => r.name) = ["rho(770)0{rho(770)0,pi+,pi-}".toList]) &&
        decide (c.particle.uniqueString = some "D0{rho(770)0,pi+,pi-}".toList) && canExpand rules c.particle && (rules.all fun r => decide (r.particle.data.name = "rho(770)0".toList))
      | _ => false) = true := by decide +kernel
  split at h
  · rename_i c rules hr
    simp only [Bool.and_eq_true, decide_eq_true_eq, List.all_eq_true] at h
    obtain ⟨⟨⟨⟨h1, h2⟩, h3⟩, h4⟩, h5⟩ := h
    refine ⟨rules, c, sampleRules_reads hr, h1, h2, fun order horder fuel => ?_⟩
    have hone : ∀ fuel, expandOne sampleEnv order rules fuel (c.particle, [c]) = none := by
      intro fuel
      unfold expandOne
      rw [h4]
      simp only [Bool.not_true, Bool.false_eq_true, if_false, Option.bind_eq_bind, h3, Option.bind_some]
      cases hfind : (order c.particle.finalState).find? (fun y => hasDecay rules y.data.name) with
      | none => rfl
      | some it =>
        rw [Option.bind_some]
        obtain ⟨r0, hr0, hn0⟩ := hasDecay_iff.1 (List.find?_some (p := fun y : Tree ℚ => hasDecay rules y.data.name) hfind)
        have hn : it.data.name = "rho(770)0".toList := by rw [← hn0]; exact h5 r0 hr0
        rw [hn]
        have hmem : r0 ∈ rulesFor rules "rho(770)0".toList := mem_rulesFor.2 ⟨hr0, h5 r0 hr0⟩
        obtain ⟨a, rest, ha⟩ := List.exists_cons_of_ne_nil (List.ne_nil_of_mem hmem)
        have haname : a.name = "rho(770)0{rho(770)0,pi+,pi-}".toList := by
          have : a ∈ rulesFor rules "rho(770)0".toList := by rw [ha]; exact List.mem_cons_self
          have : a.name ∈ rules.map fun r => r.name := List.mem_map_of_mem (mem_rulesFor.1 this).1
          rw [h2] at this
          simpa using this
        rw [ha, List.mapM_cons, haname]
        have : replaceAll fuel "D0{rho(770)0,pi+,pi-}".toList "rho(770)0".toList "rho(770)0{rho(770)0,pi+,pi-}".toList = none := by
          unfold replaceAll
          rw [if_neg (by decide)]
          exact replace_forever (by decide) fuel _ 0 (by decide) (by decide)
        rw [this]
        rfl
    unfold expand
    cases fuel with
    | zero => rfl
    | succ fuel =>
      rw [expandLoop, List.mapM_cons, hone]
      rfl
  · simp at h

end AmpGen.Particle.Rules
