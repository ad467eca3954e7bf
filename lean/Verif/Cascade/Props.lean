import Verif.Cascade.LemmasFrame
import Mathlib.Tactic.FinCases
import Mathlib.Algebra.Order.Ring.Rat
/-
The spin tensor of a whole decay chain of bosons: it is a state of the spin of the decaying particle (C155), and does not depend on the frame of reference (C156).
-/
namespace AmpGen.Cascade
open AmpGen.Vertex AmpGen.Vertex.Spec Spec Matrix

section
variable {K : Type} [Field K]

/-- A particle is one of the particles of its decay chain. -/
theorem mem_self (t : Tree K) : t ∈ particles t := by
  cases t <;> simp [particles]

/-- Whatever the decays are, the spin tensor of a decay chain is a state of its rank for the momentum of the decaying particle, if the spin tensors of the final state are such
states, and the mass of no particle with two decay products is zero. -/
theorem cascade_state [CharZero K] (t : Tree K)
    (hP : ∀ j x o a b, Tree.two j x o a b ∈ particles t →
      minkowski (momentum (.two j x o a b)) (momentum (.two j x o a b)) ≠ 0)
    (hl : ∀ j x p s, Tree.leaf j x p s ∈ particles t → IsState p s) (s : State K) (h : spinTensor t = some s) : IsState (momentum t) s := by
  induction t generalizing s with
  | leaf j x p s' =>
    unfold spinTensor at h
    cases h
    exact hl j x p s' (mem_self _)
  | one j x d ih =>
    unfold spinTensor at h
    unfold momentum
    exact ih (fun j x o a b hm => hP j x o a b (by unfold particles; exact List.mem_cons_of_mem _ hm))
      (fun j x p s hm => hl j x p s (by unfold particles; exact List.mem_cons_of_mem _ hm)) s h
  | two j x o a b iha ihb =>
    unfold spinTensor at h
    obtain ⟨s1, h1, h⟩ := Option.bind_eq_some_iff.mp h
    obtain ⟨s2, h2, h⟩ := Option.bind_eq_some_iff.mp h
    have ha : ∀ d, d ∈ particles a → d ∈ particles (.two j x o a b) := fun d hd => by
      unfold particles; exact List.mem_cons_of_mem _ (List.mem_append_left _ hd)
    have hb : ∀ d, d ∈ particles b → d ∈ particles (.two j x o a b) := fun d hd => by
      unfold particles; exact List.mem_cons_of_mem _ (List.mem_append_right _ hd)
    have i1 := iha (fun j x o a b hm => hP j x o a b (ha _ hm)) (fun j x p s hm => hl j x p s (ha _ hm)) s1 h1
    have i2 := ihb (fun j x o a b hm => hP j x o a b (hb _ hm)) (fun j x p s hm => hl j x p s (hb _ hm)) s2 h2
    have h0 := hP j x o a b (mem_self _)
    rw [P_momentum] at h
    unfold getSpinFactor at h
    split at h
    · cases h
    · exact vertex_state h0 i1 i2 h
  | three j x a b c _ _ _ =>
    unfold spinTensor at h
    obtain ⟨s1, h1, h⟩ := Option.bind_eq_some_iff.mp h
    obtain ⟨s2, h2, h⟩ := Option.bind_eq_some_iff.mp h
    obtain ⟨s3, h3, h⟩ := Option.bind_eq_some_iff.mp h
    cases h
    unfold getSpinFactorNBody
    split
    · have := (three_body_vector a.P b.P c.P).2.2.2
      rw [P_momentum, P_momentum, P_momentum] at this ⊢
      exact this
    · split <;> trivial
  | more j x p =>
    unfold spinTensor at h
    cases h
    trivial

/-- The spin tensor has the rank of the spin of the decaying particle, and there is one unless a decay to two products has no vertex.  Missing: decays to three products of
particles of spin two and more, decays to more than three products of particles with spin, one product of another spin than the decaying particle, and tensors of the final
state of another rank than their spin; see the counterexample. -/
theorem cascade_spin_partial (t : Tree K)
    (hl : ∀ j x p s, Tree.leaf j x p s ∈ particles t → State.twoSpin s = j)
    (h1 : ∀ j x d, Tree.one j x d ∈ particles t → d.twoSpin = j)
    (h3 : ∀ j x a b c, Tree.three j x a b c ∈ particles t → j = 0 ∨ j = 2)
    (h4 : ∀ j x p, Tree.more j x p ∈ particles t → j = 0) :
    (∀ s, spinTensor t = some s → State.twoSpin s = t.twoSpin) ∧
      ((∃ s, spinTensor t = some s) ↔ ∀ j x o a b, Tree.two j x o a b ∈ particles t →
        vertexName (j, x) (a.twoSpin, a.positive) (b.twoSpin, b.positive) o ∈ catalogue.map Prod.fst) := by
  induction t with
  | leaf j x p s' =>
    refine ⟨fun s h => ?_, ⟨fun _ j x o a b hm => ?_, fun _ => ⟨s', rfl⟩⟩⟩
    · unfold spinTensor at h
      cases h
      exact hl j x p s' (mem_self _)
    · simp [particles] at hm
  | one j x d ih =>
    have hd : ∀ e, e ∈ particles d → e ∈ particles (.one j x d) := fun e he => by unfold particles; exact List.mem_cons_of_mem _ he
    obtain ⟨i1, i2⟩ := ih (fun j x p s hm => hl j x p s (hd _ hm)) (fun j x e hm => h1 j x e (hd _ hm)) (fun j x a b c hm => h3 j x a b c (hd _ hm))
      (fun j x p hm => h4 j x p (hd _ hm))
    refine ⟨fun s h => ?_, ?_⟩
    · unfold spinTensor at h
      rw [i1 s h, h1 j x d (mem_self _)]
      rfl
    · unfold spinTensor
      rw [i2]
      refine ⟨fun h j x o a b hm => h j x o a b ?_, fun h j x o a b hm => h j x o a b (hd _ hm)⟩
      unfold particles at hm
      rcases List.mem_cons.mp hm with hm | hm
      · cases hm
      · exact hm
  | two j x o a b iha ihb =>
    have ha : ∀ d, d ∈ particles a → d ∈ particles (.two j x o a b) := fun d hd => by
      unfold particles; exact List.mem_cons_of_mem _ (List.mem_append_left _ hd)
    have hb : ∀ d, d ∈ particles b → d ∈ particles (.two j x o a b) := fun d hd => by
      unfold particles; exact List.mem_cons_of_mem _ (List.mem_append_right _ hd)
    obtain ⟨a1, a2⟩ := iha (fun j x p s hm => hl j x p s (ha _ hm)) (fun j x e hm => h1 j x e (ha _ hm)) (fun j x a b c hm => h3 j x a b c (ha _ hm))
      (fun j x p hm => h4 j x p (ha _ hm))
    obtain ⟨b1, b2⟩ := ihb (fun j x p s hm => hl j x p s (hb _ hm)) (fun j x e hm => h1 j x e (hb _ hm)) (fun j x a b c hm => h3 j x a b c (hb _ hm))
      (fun j x p hm => h4 j x p (hb _ hm))
    refine ⟨fun s h => ?_, fun ⟨s, h⟩ => ?_, fun h => ?_⟩
    · unfold spinTensor at h
      obtain ⟨s1, e1, h⟩ := Option.bind_eq_some_iff.mp h
      obtain ⟨s2, e2, h⟩ := Option.bind_eq_some_iff.mp h
      unfold getSpinFactor at h
      split at h
      · cases h
      · rename_i v hv
        have := (vertex_rank h).1
        rw [name_spins hv] at this
        exact this.symm
    · unfold spinTensor at h
      obtain ⟨s1, e1, h⟩ := Option.bind_eq_some_iff.mp h
      obtain ⟨s2, e2, h⟩ := Option.bind_eq_some_iff.mp h
      intro j' x' o' a' b' hm
      unfold particles at hm
      rcases List.mem_cons.mp hm with hm | hm
      · cases hm
        unfold getSpinFactor at h
        split at h
        · cases h
        · rename_i v hv
          exact List.mem_map.mpr ⟨_, lookup_mem hv, rfl⟩
      · rcases List.mem_append.mp hm with hm | hm
        · exact a2.mp ⟨s1, e1⟩ j' x' o' a' b' hm
        · exact b2.mp ⟨s2, e2⟩ j' x' o' a' b' hm
    · obtain ⟨s1, e1⟩ := a2.mpr fun j' x' o' a' b' hm => h j' x' o' a' b' (ha _ hm)
      obtain ⟨s2, e2⟩ := b2.mpr fun j' x' o' a' b' hm => h j' x' o' a' b' (hb _ hm)
      have hn := h j x o a b (mem_self _)
      obtain ⟨v, hv⟩ : ∃ v, catalogue.lookup (vertexName (j, x) (a.twoSpin, a.positive) (b.twoSpin, b.positive) o) = some v := by
        obtain ⟨r, hr⟩ : ∃ r, catalogue.lookup (vertexName (j, x) (a.twoSpin, a.positive) (b.twoSpin, b.positive) o) = r := ⟨_, rfl⟩
        cases r with
        | some v => exact ⟨v, hr⟩
        | none =>
          exfalso
          obtain ⟨⟨n, v⟩, hm, hn⟩ := List.mem_map.mp hn
          rw [List.lookup_eq_none_iff] at hr
          have := hr (n, v) hm
          simp only at hn this
          rw [hn] at this
          simp at this
      have hs := name_spins hv
      obtain ⟨s, e⟩ := vertex_rank_some (P := Tree.P (.two j x o a b)) (Q := a.P - b.P) (v := v) (s1 := s1) (s2 := s2) (by rw [hs, a1 s1 e1]) (by rw [hs, b1 s2 e2])
      refine ⟨s, ?_⟩
      unfold spinTensor
      rw [e1, e2]
      simp only [Option.bind_some]
      unfold getSpinFactor
      rw [hv]
      exact e
  | three j x a b c iha ihb ihc =>
    have ha : ∀ d, d ∈ particles a → d ∈ particles (.three j x a b c) := fun d hd => by
      unfold particles; exact List.mem_cons_of_mem _ (List.mem_append_left _ (List.mem_append_left _ hd))
    have hb : ∀ d, d ∈ particles b → d ∈ particles (.three j x a b c) := fun d hd => by
      unfold particles; exact List.mem_cons_of_mem _ (List.mem_append_left _ (List.mem_append_right _ hd))
    have hc : ∀ d, d ∈ particles c → d ∈ particles (.three j x a b c) := fun d hd => by
      unfold particles; exact List.mem_cons_of_mem _ (List.mem_append_right _ hd)
    obtain ⟨_, a2⟩ := iha (fun j x p s hm => hl j x p s (ha _ hm)) (fun j x e hm => h1 j x e (ha _ hm)) (fun j x a b c hm => h3 j x a b c (ha _ hm))
      (fun j x p hm => h4 j x p (ha _ hm))
    obtain ⟨_, b2⟩ := ihb (fun j x p s hm => hl j x p s (hb _ hm)) (fun j x e hm => h1 j x e (hb _ hm)) (fun j x a b c hm => h3 j x a b c (hb _ hm))
      (fun j x p hm => h4 j x p (hb _ hm))
    obtain ⟨_, c2⟩ := ihc (fun j x p s hm => hl j x p s (hc _ hm)) (fun j x e hm => h1 j x e (hc _ hm)) (fun j x a b c hm => h3 j x a b c (hc _ hm))
      (fun j x p hm => h4 j x p (hc _ hm))
    refine ⟨fun s h => ?_, fun ⟨s, h⟩ => ?_, fun h => ?_⟩
    · unfold spinTensor at h
      obtain ⟨s1, e1, h⟩ := Option.bind_eq_some_iff.mp h
      obtain ⟨s2, e2, h⟩ := Option.bind_eq_some_iff.mp h
      obtain ⟨s3, e3, h⟩ := Option.bind_eq_some_iff.mp h
      cases h
      rcases h3 j x a b c (mem_self _) with rfl | rfl <;> rfl
    · unfold spinTensor at h
      obtain ⟨s1, e1, h⟩ := Option.bind_eq_some_iff.mp h
      obtain ⟨s2, e2, h⟩ := Option.bind_eq_some_iff.mp h
      obtain ⟨s3, e3, h⟩ := Option.bind_eq_some_iff.mp h
      intro j' x' o' a' b' hm
      unfold particles at hm
      rcases List.mem_cons.mp hm with hm | hm
      · cases hm
      · rcases List.mem_append.mp hm with hm | hm
        · rcases List.mem_append.mp hm with hm | hm
          · exact a2.mp ⟨s1, e1⟩ j' x' o' a' b' hm
          · exact b2.mp ⟨s2, e2⟩ j' x' o' a' b' hm
        · exact c2.mp ⟨s3, e3⟩ j' x' o' a' b' hm
    · obtain ⟨s1, e1⟩ := a2.mpr fun j' x' o' a' b' hm => h j' x' o' a' b' (ha _ hm)
      obtain ⟨s2, e2⟩ := b2.mpr fun j' x' o' a' b' hm => h j' x' o' a' b' (hb _ hm)
      obtain ⟨s3, e3⟩ := c2.mpr fun j' x' o' a' b' hm => h j' x' o' a' b' (hc _ hm)
      unfold spinTensor
      rw [e1, e2, e3]
      exact ⟨_, rfl⟩
  | more j x p =>
    refine ⟨fun s h => ?_, ⟨fun _ j x o a b hm => ?_, fun _ => ⟨_, rfl⟩⟩⟩
    · unfold spinTensor at h
      cases h
      exact (h4 j x p (mem_self _)).symm
    · simp [particles] at hm

/-- A particle of spin two with three decay products, and a particle of spin one with four, get the spin tensor of a particle without spin: the constant one. -/
theorem cascade_spin_counterexample (x : Bool) (p q r : V4 K) :
    let pion (p : V4 K) : Tree K := .leaf 0 true p (.scalar 1)
    spinTensor (.three 4 x (pion p) (pion q) (pion r)) = some (.scalar 1) ∧ spinTensor (.more 2 x p) = some (.scalar 1) :=
  ⟨rfl, rfl⟩

theorem factorNBody_frame {Λ : Matrix (Fin 4) (Fin 4) K} (h : Lorentz Λ) (p q r : V4 K) (j : Nat) :
    getSpinFactorNBody (Λ *ᵥ p) (Λ *ᵥ q) (Λ *ᵥ r) (j / 2) =
      State.times (Λ.det ^ (if j / 2 = 1 then 1 else 0)) (State.moved Λ (getSpinFactorNBody p q r (j / 2))) := by
  unfold getSpinFactorNBody
  split
  · rw [three_body_frame h, pow_one]
    rfl
  · split <;> simp [State.moved, State.times]

/-- In a frame which is rotated or moves, the spin tensor of every decay chain is the old one in the new frame (there is one in both frames or in none); for a particle without
spin it is the same number. -/
theorem cascade_frame {Λ : Matrix (Fin 4) (Fin 4) K} (h : Lorentz Λ) (hdet : Λ.det = 1) (t : Tree K) :
    spinTensor (Tree.moved Λ t) = (spinTensor t).map (State.moved Λ) ∧
      ∀ A, spinTensor t = some (.scalar A) → spinTensor (Tree.moved Λ t) = some (.scalar A) := by
  have key : spinTensor (Tree.moved Λ t) = (spinTensor t).map (State.moved Λ) := by
    induction t with
    | leaf j x p s => rfl
    | one j x d ih => exact ih
    | two j x o a b iha ihb =>
      have eP : Tree.P (.two j x o (Tree.moved Λ a) (Tree.moved Λ b)) = Λ *ᵥ Tree.P (.two j x o a b) := P_moved Λ (.two j x o a b)
      unfold Tree.moved spinTensor
      rw [iha, ihb, eP, P_moved, P_moved, (moved_twoSpin Λ a).1, (moved_twoSpin Λ a).2, (moved_twoSpin Λ b).1, (moved_twoSpin Λ b).2, ← Matrix.mulVec_sub]
      cases spinTensor a with
      | none => rfl
      | some s1 =>
        cases spinTensor b with
        | none => rfl
        | some s2 =>
          simp only [Option.map_some, Option.bind_some]
          rw [factor_frame h]
          simp only [hdet, one_pow, times_one]
    | three j x a b c iha ihb ihc =>
      unfold Tree.moved spinTensor
      rw [iha, ihb, ihc, P_moved, P_moved, P_moved]
      cases spinTensor a with
      | none => rfl
      | some s1 =>
        cases spinTensor b with
        | none => rfl
        | some s2 =>
          cases spinTensor c with
          | none => rfl
          | some s3 =>
            simp only [Option.map_some, Option.bind_some]
            rw [factorNBody_frame h, hdet, one_pow, times_one]
    | more j x p => rfl
  refine ⟨key, fun A hA => ?_⟩
  rw [key, hA]
  rfl

/-- In every other frame, with reflections, there is a sign as well: one for each decay for which the sum of the spins and of the orbital angular momentum is odd.  Missing: chains in
which a particle of spin one decays to one of spin two and one without spin in a D wave, and the latter decays on; see the counterexample. -/
theorem cascade_reflection_partial {Λ : Matrix (Fin 4) (Fin 4) K} (h : Lorentz Λ) (t : Tree K)
    (hn : ∀ j x o a b, Tree.two j x o a b ∈ particles t → ¬ (j = 2 ∧ a.twoSpin = 4 ∧ b.twoSpin = 0 ∧ orbitalNumber o = 2) ∨ reflections b = 0) :
    spinTensor (Tree.moved Λ t) = (spinTensor t).map fun s => State.times (Λ.det ^ reflections t) (State.moved Λ s) := by
  induction t with
  | leaf j x p s =>
    unfold reflections
    simp only [pow_zero, times_one]
    rfl
  | one j x d ih => exact ih fun j x o a b hm => hn j x o a b (by unfold particles; exact List.mem_cons_of_mem _ hm)
  | two j x o a b iha ihb =>
    have eP : Tree.P (.two j x o (Tree.moved Λ a) (Tree.moved Λ b)) = Λ *ᵥ Tree.P (.two j x o a b) := P_moved Λ (.two j x o a b)
    have ia := iha fun j' x' o' a' b' hm => hn j' x' o' a' b' (by unfold particles; exact List.mem_cons_of_mem _ (List.mem_append_left _ hm))
    have ib := ihb fun j' x' o' a' b' hm => hn j' x' o' a' b' (by unfold particles; exact List.mem_cons_of_mem _ (List.mem_append_right _ hm))
    unfold Tree.moved spinTensor reflections
    rw [ia, ib, eP, P_moved, P_moved, (moved_twoSpin Λ a).1, (moved_twoSpin Λ a).2, (moved_twoSpin Λ b).1, (moved_twoSpin Λ b).2, ← Matrix.mulVec_sub]
    have h0 := hn j x o a b (mem_self _)
    cases spinTensor a with
    | none => rfl
    | some s1 =>
      cases spinTensor b with
      | none => rfl
      | some s2 =>
        simp only [Option.map_some, Option.bind_some]
        rw [factor_times, factor_frame h]
        · obtain ⟨r, hr⟩ : ∃ r, getSpinFactor (Tree.P (.two j x o a b)) (a.P - b.P) s1 s2
            (vertexName (j, x) (a.twoSpin, a.positive) (b.twoSpin, b.positive) o) = r := ⟨_, rfl⟩
          rw [hr]
          cases r with
          | none => rfl
          | some s =>
            simp only [Option.map_some, times_times]
            congr 2
            rw [pow_add, pow_add]
            ring
        · rcases h0 with h0 | h0
          · exact .inl h0
          · rw [h0, pow_zero]
            exact .inr rfl
  | three j x a b c iha ihb ihc =>
    have ia := iha fun j' x' o' a' b' hm => hn j' x' o' a' b' (by
      unfold particles; exact List.mem_cons_of_mem _ (List.mem_append_left _ (List.mem_append_left _ hm)))
    have ib := ihb fun j' x' o' a' b' hm => hn j' x' o' a' b' (by
      unfold particles; exact List.mem_cons_of_mem _ (List.mem_append_left _ (List.mem_append_right _ hm)))
    have ic := ihc fun j' x' o' a' b' hm => hn j' x' o' a' b' (by
      unfold particles; exact List.mem_cons_of_mem _ (List.mem_append_right _ hm))
    unfold Tree.moved spinTensor reflections
    rw [ia, ib, ic, P_moved, P_moved, P_moved]
    cases spinTensor a with
    | none => rfl
    | some s1 =>
      cases spinTensor b with
      | none => rfl
      | some s2 =>
        cases spinTensor c with
        | none => rfl
        | some s3 =>
          simp only [Option.map_some, Option.bind_some]
          rw [factorNBody_frame h]
  | more j x p =>
    unfold reflections
    simp only [pow_zero, times_one]
    rfl

end

/-- A particle without spin decays to a vector and a pion, and the vector to two pions; all four momenta have mass. -/
def exampleTree : Tree ℚ :=
  .two 0 true "P" (.two 2 true "P" (.leaf 0 true ![1, 0, 0, 2] (.scalar 1)) (.leaf 0 true ![0, 1, 0, 2] (.scalar 1))) (.leaf 0 false ![-1, 0, 1, 3] (.scalar 1))

/-- The example meets the hypotheses of `cascade_state`, has a spin tensor, and that of the vector in it has a component. -/
example : (∀ j x o a b, Tree.two j x o a b ∈ particles exampleTree → minkowski (momentum (.two j x o a b)) (momentum (.two j x o a b)) ≠ 0) ∧
    (∀ j x p s, Tree.leaf j x p s ∈ particles exampleTree → IsState p s) := by
  constructor
  · intro j x o a b hm
    simp only [exampleTree, particles, List.mem_cons, List.mem_append, List.not_mem_nil, Tree.two.injEq, reduceCtorEq, or_false, false_or] at hm
    rcases hm with ⟨rfl, rfl, rfl, rfl, rfl⟩ | ⟨rfl, rfl, rfl, rfl, rfl⟩ <;> simp [momentum, minkowski] <;> norm_num
  · intro j x p s hm
    simp only [exampleTree, particles, List.mem_cons, List.mem_append, List.not_mem_nil, Tree.leaf.injEq, reduceCtorEq, or_false, false_or] at hm
    rcases hm with (⟨rfl, rfl, rfl, rfl⟩ | ⟨rfl, rfl, rfl, rfl⟩) | ⟨rfl, rfl, rfl, rfl⟩ <;> trivial

/-- The number of a spin tensor of rank zero. -/
def number (s : Option (State ℚ)) : Option ℚ := s.bind fun
  | .scalar s => some s
  | _ => none

/-- A component of a spin tensor of rank one. -/
def entry (μ : Fin 4) (s : Option (State ℚ)) : Option ℚ := s.bind fun
  | .vector v => some (v μ)
  | _ => none

/-- The amplitude of the example is a number other than zero. -/
example : (number (spinTensor exampleTree)).isSome ∧ number (spinTensor exampleTree) ≠ some 0 := by decide +kernel

/-- The example meets the hypotheses of `cascade_spin_partial` and of `cascade_reflection_partial`. -/
example : (∀ j x p s, Tree.leaf j x p s ∈ particles exampleTree → State.twoSpin s = j) ∧ (∀ j x d, Tree.one j x d ∈ particles exampleTree → d.twoSpin = j) ∧
    (∀ j x a b c, Tree.three j x a b c ∈ particles exampleTree → j = 0 ∨ j = 2) ∧ (∀ j x p, Tree.more j x p ∈ particles exampleTree → j = 0) ∧
    (∀ j x o a b, Tree.two j x o a b ∈ particles exampleTree → ¬ (j = 2 ∧ a.twoSpin = 4 ∧ b.twoSpin = 0 ∧ orbitalNumber o = 2) ∨ reflections b = 0) := by
  refine ⟨?_, ?_, ?_, ?_, ?_⟩
  · intro j x p s hm
    simp only [exampleTree, particles, List.mem_cons, List.mem_append, List.not_mem_nil, Tree.leaf.injEq, reduceCtorEq, or_false, false_or] at hm
    rcases hm with (⟨rfl, rfl, rfl, rfl⟩ | ⟨rfl, rfl, rfl, rfl⟩) | ⟨rfl, rfl, rfl, rfl⟩ <;> rfl
  · intro j x d hm
    simp [exampleTree, particles] at hm
  · intro j x a b c hm
    simp [exampleTree, particles] at hm
  · intro j x p hm
    simp [exampleTree, particles] at hm
  · intro j x o a b hm
    simp only [exampleTree, particles, List.mem_cons, List.mem_append, List.not_mem_nil, Tree.two.injEq, reduceCtorEq, or_false, false_or] at hm
    rcases hm with ⟨rfl, rfl, rfl, rfl, rfl⟩ | ⟨rfl, rfl, rfl, rfl, rfl⟩ <;> exact .inr rfl

/-- The reflection of all directions in space. -/
def reflection : Matrix (Fin 4) (Fin 4) ℚ := Matrix.diagonal ![-1, -1, -1, 1]

theorem reflection_lorentz : Lorentz reflection ∧ reflection.det = -1 := by
  constructor
  · intro u v
    simp [minkowski, reflection, Matrix.mulVec_diagonal]
  · simp [reflection, Matrix.det_diagonal, Fin.prod_univ_four]

/-- A boost, and a decay chain with a sign under reflections: a particle without spin decays to two vectors in a P wave. -/
example : Lorentz (!![5/4, 0, 0, 3/4; 0, 1, 0, 0; 0, 0, 1, 0; 3/4, 0, 0, 5/4] : Matrix (Fin 4) (Fin 4) ℚ) ∧
    reflections (.two 0 true "P" (.leaf 2 true ![1, 0, 0, 2] (.vector ![0, 1, 0, 0])) (.leaf 2 true ![-1, 0, 0, 3] (.vector ![0, 0, 1, 0])) : Tree ℚ) = 3 ∧
    number (spinTensor (.two 0 true "P" (.leaf 2 true ![1, 0, 0, 2] (.vector ![0, 1, 0, 0])) (.leaf 2 true ![-1, 0, 0, 3] (.vector ![0, 0, 1, 0])))) ≠ some 0 := by
  refine ⟨?_, rfl, by decide +kernel⟩
  intro u v
  simp [minkowski, Matrix.mulVec, dotProduct, Fin.sum_univ_four]
  ring

/-- A vector decays to a tensor and a particle without spin in a D wave, and the latter to two vectors in a P wave. -/
def ignoringTree : Tree ℚ :=
  .two 2 true "D" (.leaf 4 true ![1, 0, 0, 2] (.tensor fun μ ν => if μ = 1 ∧ ν = 0 ∨ μ = 0 ∧ ν = 1 then 1 else 0))
    (.two 0 true "P" (.leaf 2 true ![-1, 0, 0, 1] (.vector ![0, 1, 0, 0])) (.leaf 2 true ![0, 0, 0, 1] (.vector ![0, 0, 1, 0])))

/-- The vertex of that decay leaves out the amplitude of the second decay product, and with it its sign: the amplitude changes sign under a reflection, although an even number of
signs is expected. -/
theorem cascade_reflection_counterexample : reflections ignoringTree = 8 ∧ ∃ v w : V4 ℚ, spinTensor ignoringTree = some (.vector v) ∧
    spinTensor (Tree.moved reflection ignoringTree) = some (.vector w) ∧ v 2 ≠ 0 ∧
    w = fun μ => -(reflection *ᵥ v) μ := by
  refine ⟨rfl, ?_⟩
  obtain ⟨r, hr⟩ : ∃ r, spinTensor ignoringTree = r := ⟨_, rfl⟩
  have h2 : (entry 2 (spinTensor ignoringTree)).isSome ∧ entry 2 (spinTensor ignoringTree) ≠ some 0 := by decide +kernel
  have h3 : ∀ μ, (entry μ (spinTensor (Tree.moved reflection ignoringTree))).isSome ∧
      entry μ (spinTensor (Tree.moved reflection ignoringTree)) = (entry μ (spinTensor ignoringTree)).map fun x => if μ = 3 then -x else x := by decide +kernel
  rw [hr] at h2 h3 ⊢
  obtain ⟨r', hr'⟩ : ∃ r, spinTensor (Tree.moved reflection ignoringTree) = r := ⟨_, rfl⟩
  rw [hr'] at h3 ⊢
  match r, r', h2, h3 with
  | some (.vector v), some (.vector w), h2, h3 =>
    refine ⟨v, w, rfl, rfl, ?_, ?_⟩
    · intro h0
      exact h2.2 (by simp [entry, h0])
    · funext μ
      have := (h3 μ).2
      simp only [entry, Option.bind_some, Option.map_some, Option.some.injEq] at this
      rw [this]
      fin_cases μ <;> simp [reflection, Matrix.mulVec_diagonal]
  | none, _, h2, _ => simp [entry] at h2
  | some (.scalar _), _, h2, _ => simp [entry] at h2
  | some (.tensor _), _, h2, _ => simp [entry] at h2
  | some (.vector _), none, _, h3 => have := h3 0; simp [entry] at this
  | some (.vector _), some (.scalar _), _, h3 => have := h3 0; simp [entry] at this
  | some (.vector _), some (.tensor _), _, h3 => have := h3 0; simp [entry] at this

end AmpGen.Cascade
