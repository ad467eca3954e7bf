import Verif.Cascade.FermionLemmas
import Mathlib.Analysis.Complex.Polynomial.Basic
/-
The spin tensor of a whole decay chain of a fermion: it obeys the Dirac equation, or the equations of Rarita and Schwinger, for the momentum of the decaying fermion (C157), and does not
depend on the frame of reference (C158).
-/
namespace AmpGen.Cascade
open AmpGen.Vertex AmpGen.Vertex.Spec Spec Matrix

/-- The spin tensor of a decay chain of a fermion is a solution of the Dirac equation for the momentum and the mass of the decaying fermion, with the sign of antifermions, or of the
equations of Rarita and Schwinger, whatever the decays are.  Missing: antifermions that decay by the couplings `S1` to an antifermion and a boson without spin and `D1` to a vector; see
the counterexample. -/
theorem fermion_chain_state_partial (root : ℂ → ℂ) (hr : ∀ z, root z ^ 2 = z) (t : FermionTree)
    (hl : ∀ j x p s, FermionTree.leaf j x p s ∈ fermions t → IsSpinor Gamma4Vec x (root (minkowski p p)) p s)
    (h1 : ∀ j x d, FermionTree.one j x d ∈ fermions t → d.positive = x)
    (hf : ∀ j x o f b, FermionTree.first j x o f b ∈ fermions t →
      minkowski (fermionMomentum (.first j x o f b)) (fermionMomentum (.first j x o f b)) ≠ 0 ∧ ¬ (x = false ∧ o = "S1"))
    (hs : ∀ j x o b f, FermionTree.second j x o b f ∈ fermions t →
      minkowski (fermionMomentum (.second j x o b f)) (fermionMomentum (.second j x o b f)) ≠ 0 ∧ ¬ (x = false ∧ o = "D1"))
    (s : Spinor) (h : fermionTensor root t = some s) :
    IsSpinor Gamma4Vec t.positive (root (minkowski (fermionMomentum t) (fermionMomentum t))) (fermionMomentum t) s := by
  induction t generalizing s with
  | leaf j x p s' =>
    unfold fermionTensor at h
    cases h
    exact hl j x p s' (mem_self_fermion _)
  | one j x d ih =>
    have hd : ∀ e, e ∈ fermions d → e ∈ fermions (.one j x d) := fun e he => by unfold fermions; exact List.mem_cons_of_mem _ he
    have := ih (fun j x p s hm => hl j x p s (hd _ hm)) (fun j x d hm => h1 j x d (hd _ hm)) (fun j x o f b hm => hf j x o f b (hd _ hm))
      (fun j x o b f hm => hs j x o b f (hd _ hm)) s h
    rw [h1 j x d (mem_self_fermion _)] at this
    exact this
  | first j x o f b _ =>
    unfold fermionTensor at h
    obtain ⟨s1, e1, h⟩ := Option.bind_eq_some_iff.mp h
    obtain ⟨s2, e2, h⟩ := Option.bind_eq_some_iff.mp h
    obtain ⟨h0, hw⟩ := hf j x o f b (mem_self_fermion _)
    unfold getFermionFactor at h
    split at h
    · cases h
    · rename_i v hv
      have hn := fermion_name hv
      have hk := fermion_rank h
      have ex : x = !v.2 := congrArg Prod.snd hn.1
      have hv' : ¬ wrongVertex v := by
        rintro ⟨ha, hb⟩
        rcases hb with hb | hb
        · apply hw
          rw [hb] at hn
          exact ⟨by rw [ex, ha]; rfl, hn.2.2.2⟩
        · rw [hb] at hk
          simp [FermionName.spins] at hk
      rw [fermion_P_momentum] at h
      have := fermion_vertex_state root hr hv' h0 h
      rw [← ex] at this
      exact this
  | second j x o b f _ =>
    unfold fermionTensor at h
    obtain ⟨s1, e1, h⟩ := Option.bind_eq_some_iff.mp h
    obtain ⟨s2, e2, h⟩ := Option.bind_eq_some_iff.mp h
    obtain ⟨h0, hw⟩ := hs j x o b f (mem_self_fermion _)
    unfold getFermionFactor at h
    split at h
    · cases h
    · rename_i v hv
      have hn := fermion_name hv
      have hk := fermion_rank h
      have ex : x = !v.2 := congrArg Prod.snd hn.1
      have hv' : ¬ wrongVertex v := by
        rintro ⟨ha, hb⟩
        rcases hb with hb | hb
        · rw [hb] at hk
          simp [FermionName.spins] at hk
        · apply hw
          rw [hb] at hn
          exact ⟨by rw [ex, ha]; rfl, hn.2.2.2⟩
      rw [fermion_P_momentum] at h
      have := fermion_vertex_state root hr hv' h0 h
      rw [← ex] at this
      exact this

theorem fermion_lookup {n : String} (h : n ∈ fermionCatalogue.map Prod.fst) : ∃ v, fermionCatalogue.lookup n = some v := by
  obtain ⟨r, hr⟩ : ∃ r, fermionCatalogue.lookup n = r := ⟨_, rfl⟩
  cases r with
  | some v => exact ⟨v, hr⟩
  | none =>
    exfalso
    obtain ⟨⟨n', v⟩, hm, hn⟩ := List.mem_map.mp h
    rw [List.lookup_eq_none_iff] at hr
    have := hr (n', v) hm
    simp only at hn this
    rw [hn] at this
    simp at this

/-- It is a spinor for spin 1/2 and a spinor with a vector index for spin 3/2.  There is one if and only if the bosons have spin tensors and each decay has a vertex, and then the fermion
number is kept in every decay: no fermion decays to an antifermion. -/
theorem fermion_chain_spin (root : ℂ → ℂ) (t : FermionTree)
    (hl : ∀ j x p s, FermionTree.leaf j x p s ∈ fermions t → Spinor.twoSpin s = j)
    (h1 : ∀ j x d, FermionTree.one j x d ∈ fermions t → d.twoSpin = j)
    (hb : ∀ b s, b ∈ bosons t → spinTensor b = some s → State.twoSpin s = b.twoSpin) :
    (∀ s, fermionTensor root t = some s → Spinor.twoSpin s = t.twoSpin) ∧
      ((∃ s, fermionTensor root t = some s) ↔
        (∀ j x o f b, FermionTree.first j x o f b ∈ fermions t → (∃ s, spinTensor b = some s) ∧
          vertexName (j, x) (f.twoSpin, f.positive) (b.twoSpin, b.positive) o ∈ fermionCatalogue.map Prod.fst) ∧
        (∀ j x o b f, FermionTree.second j x o b f ∈ fermions t → (∃ s, spinTensor b = some s) ∧
          vertexName (j, x) (b.twoSpin, b.positive) (f.twoSpin, f.positive) o ∈ fermionCatalogue.map Prod.fst)) ∧
      ((∃ s, fermionTensor root t = some s) →
        (∀ j x o f b, FermionTree.first j x o f b ∈ fermions t → f.positive = x) ∧
        (∀ j x o b f, FermionTree.second j x o b f ∈ fermions t → f.positive = x)) := by
  induction t with
  | leaf j x p s' =>
    refine ⟨fun s h => ?_, ⟨fun _ => ⟨fun j x o f b hm => ?_, fun j x o f b hm => ?_⟩, fun _ => ⟨s', rfl⟩⟩,
      fun _ => ⟨fun j x o f b hm => ?_, fun j x o f b hm => ?_⟩⟩
    · unfold fermionTensor at h
      cases h
      exact hl j x p s' (mem_self_fermion _)
    all_goals simp [fermions] at hm
  | one j x d ih =>
    have hd : ∀ e, e ∈ fermions d → e ∈ fermions (.one j x d) := fun e he => by unfold fermions; exact List.mem_cons_of_mem _ he
    obtain ⟨i1, i2, i3⟩ := ih (fun j x p s hm => hl j x p s (hd _ hm)) (fun j x d hm => h1 j x d (hd _ hm)) hb
    refine ⟨fun s h => ?_, ?_, fun h => ?_⟩
    · rw [i1 s h, h1 j x d (mem_self_fermion _)]
      rfl
    · unfold fermionTensor
      rw [i2]
      simp only [fermions, List.mem_cons, reduceCtorEq, false_or]
    · have := i3 h
      simp only [fermions, List.mem_cons, reduceCtorEq, false_or]
      exact this
  | first j x o f b ih =>
    have hd : ∀ e, e ∈ fermions f → e ∈ fermions (.first j x o f b) := fun e he => by unfold fermions; exact List.mem_cons_of_mem _ he
    have hbb : b ∈ bosons (.first j x o f b) := by unfold bosons; exact List.mem_append_left _ (mem_self _)
    obtain ⟨i1, i2, i3⟩ := ih (fun j x p s hm => hl j x p s (hd _ hm)) (fun j x d hm => h1 j x d (hd _ hm))
      (fun b' s hm => hb b' s (by unfold bosons; exact List.mem_append_right _ hm))
    have found : ∀ s, fermionTensor root (.first j x o f b) = some s → ∃ s1 s2 v, fermionTensor root f = some s1 ∧ spinTensor b = some s2 ∧
        fermionCatalogue.lookup (vertexName (j, x) (f.twoSpin, f.positive) (b.twoSpin, b.positive) o) = some v ∧
        v.1.spins = (Spinor.twoSpin s, true, Spinor.twoSpin s1, State.twoSpin s2) := by
      intro s h
      unfold fermionTensor at h
      obtain ⟨s1, e1, h⟩ := Option.bind_eq_some_iff.mp h
      obtain ⟨s2, e2, h⟩ := Option.bind_eq_some_iff.mp h
      unfold getFermionFactor at h
      split at h
      · cases h
      · rename_i v hv
        exact ⟨s1, s2, v, e1, e2, hv, fermion_rank h⟩
    refine ⟨fun s h => ?_, ⟨fun ⟨s, h⟩ => ?_, fun h => ?_⟩, fun ⟨s, h⟩ => ?_⟩
    · obtain ⟨s1, s2, v, e1, e2, hv, hk⟩ := found s h
      have := congrArg Prod.fst (fermion_name hv).1
      simp only [hk] at this
      exact this.symm
    · obtain ⟨s1, s2, v, e1, e2, hv, hk⟩ := found s h
      obtain ⟨k1, k2⟩ := i2.mp ⟨s1, e1⟩
      refine ⟨fun j' x' o' f' b' hm => ?_, fun j' x' o' b' f' hm => ?_⟩
      · unfold fermions at hm
        rcases List.mem_cons.mp hm with hm | hm
        · cases hm
          exact ⟨⟨s2, e2⟩, List.mem_map.mpr ⟨_, lookup_mem hv, rfl⟩⟩
        · exact k1 j' x' o' f' b' hm
      · unfold fermions at hm
        rcases List.mem_cons.mp hm with hm | hm
        · cases hm
        · exact k2 j' x' o' b' f' hm
    · obtain ⟨s1, e1⟩ := i2.mpr ⟨fun j' x' o' f' b' hm => h.1 j' x' o' f' b' (hd _ hm), fun j' x' o' b' f' hm => h.2 j' x' o' b' f' (hd _ hm)⟩
      obtain ⟨⟨s2, e2⟩, hn⟩ := h.1 j x o f b (mem_self_fermion _)
      obtain ⟨v, hv⟩ := fermion_lookup hn
      obtain ⟨_, ha, hc, _⟩ := fermion_name hv
      have r1 := i1 s1 e1
      have r2 := hb b s2 hbb e2
      have hk : v.1.spins.2 = (true, Spinor.twoSpin s1, State.twoSpin s2) := by
        rw [r1, r2]
        unfold firstProduct secondProduct at *
        obtain ⟨v, anti⟩ := v
        rw [← r1] at ha ⊢
        cases s1 <;> cases v <;> simp [FermionName.spins, Spinor.twoSpin] at ha hc ⊢ <;> first | exact hc.symm | exact hc.1.symm | skip
      obtain ⟨s, e⟩ := fermion_rank_some (F := projector root v.1 v.2 (FermionTree.P (.first j x o f b))) (P := FermionTree.P (.first j x o f b)) (Q := f.P - b.P) hk
      refine ⟨s, ?_⟩
      unfold fermionTensor
      rw [e1, e2]
      simp only [Option.bind_some]
      unfold getFermionFactor
      rw [hv]
      exact e
    · obtain ⟨s1, s2, v, e1, e2, hv, hk⟩ := found s h
      obtain ⟨k1, k2⟩ := i3 ⟨s1, e1⟩
      obtain ⟨hm0, ha, hc, _⟩ := fermion_name hv
      refine ⟨fun j' x' o' f' b' hm => ?_, fun j' x' o' b' f' hm => ?_⟩
      · unfold fermions at hm
        rcases List.mem_cons.mp hm with hm | hm
        · cases hm
          unfold firstProduct at ha
          rw [if_pos (by rw [hk])] at ha
          exact (congrArg Prod.snd ha).trans (congrArg Prod.snd hm0).symm
        · exact k1 j' x' o' f' b' hm
      · unfold fermions at hm
        rcases List.mem_cons.mp hm with hm | hm
        · cases hm
        · exact k2 j' x' o' b' f' hm
  | second j x o b f ih =>
    have hd : ∀ e, e ∈ fermions f → e ∈ fermions (.second j x o b f) := fun e he => by unfold fermions; exact List.mem_cons_of_mem _ he
    have hbb : b ∈ bosons (.second j x o b f) := by unfold bosons; exact List.mem_append_left _ (mem_self _)
    obtain ⟨i1, i2, i3⟩ := ih (fun j x p s hm => hl j x p s (hd _ hm)) (fun j x d hm => h1 j x d (hd _ hm))
      (fun b' s hm => hb b' s (by unfold bosons; exact List.mem_append_right _ hm))
    have found : ∀ s, fermionTensor root (.second j x o b f) = some s → ∃ s1 s2 v, fermionTensor root f = some s1 ∧ spinTensor b = some s2 ∧
        fermionCatalogue.lookup (vertexName (j, x) (b.twoSpin, b.positive) (f.twoSpin, f.positive) o) = some v ∧
        v.1.spins = (Spinor.twoSpin s, false, Spinor.twoSpin s1, State.twoSpin s2) := by
      intro s h
      unfold fermionTensor at h
      obtain ⟨s2, e2, h⟩ := Option.bind_eq_some_iff.mp h
      obtain ⟨s1, e1, h⟩ := Option.bind_eq_some_iff.mp h
      unfold getFermionFactor at h
      split at h
      · cases h
      · rename_i v hv
        exact ⟨s1, s2, v, e1, e2, hv, fermion_rank h⟩
    refine ⟨fun s h => ?_, ⟨fun ⟨s, h⟩ => ?_, fun h => ?_⟩, fun ⟨s, h⟩ => ?_⟩
    · obtain ⟨s1, s2, v, e1, e2, hv, hk⟩ := found s h
      have := congrArg Prod.fst (fermion_name hv).1
      simp only [hk] at this
      exact this.symm
    · obtain ⟨s1, s2, v, e1, e2, hv, hk⟩ := found s h
      obtain ⟨k1, k2⟩ := i2.mp ⟨s1, e1⟩
      refine ⟨fun j' x' o' f' b' hm => ?_, fun j' x' o' b' f' hm => ?_⟩
      · unfold fermions at hm
        rcases List.mem_cons.mp hm with hm | hm
        · cases hm
        · exact k1 j' x' o' f' b' hm
      · unfold fermions at hm
        rcases List.mem_cons.mp hm with hm | hm
        · cases hm
          exact ⟨⟨s2, e2⟩, List.mem_map.mpr ⟨_, lookup_mem hv, rfl⟩⟩
        · exact k2 j' x' o' b' f' hm
    · obtain ⟨s1, e1⟩ := i2.mpr ⟨fun j' x' o' f' b' hm => h.1 j' x' o' f' b' (hd _ hm), fun j' x' o' b' f' hm => h.2 j' x' o' b' f' (hd _ hm)⟩
      obtain ⟨⟨s2, e2⟩, hn⟩ := h.2 j x o b f (mem_self_fermion _)
      obtain ⟨v, hv⟩ := fermion_lookup hn
      obtain ⟨_, ha, hc, _⟩ := fermion_name hv
      have r1 := i1 s1 e1
      have r2 := hb b s2 hbb e2
      have hk : v.1.spins.2 = (false, Spinor.twoSpin s1, State.twoSpin s2) := by
        rw [r1, r2]
        unfold firstProduct secondProduct at *
        obtain ⟨v, anti⟩ := v
        rw [← r1] at hc ⊢
        cases s1 <;> cases v <;> simp [FermionName.spins, Spinor.twoSpin] at ha hc ⊢ <;> first | exact ha.symm | exact ha.1.symm | skip
      obtain ⟨s, e⟩ := fermion_rank_some (F := projector root v.1 v.2 (FermionTree.P (.second j x o b f))) (P := FermionTree.P (.second j x o b f)) (Q := b.P - f.P) hk
      refine ⟨s, ?_⟩
      unfold fermionTensor
      rw [e1, e2]
      simp only [Option.bind_some]
      unfold getFermionFactor
      rw [hv]
      exact e
    · obtain ⟨s1, s2, v, e1, e2, hv, hk⟩ := found s h
      obtain ⟨k1, k2⟩ := i3 ⟨s1, e1⟩
      obtain ⟨hm0, ha, hc, _⟩ := fermion_name hv
      refine ⟨fun j' x' o' f' b' hm => ?_, fun j' x' o' b' f' hm => ?_⟩
      · unfold fermions at hm
        rcases List.mem_cons.mp hm with hm | hm
        · cases hm
        · exact k1 j' x' o' f' b' hm
      · unfold fermions at hm
        rcases List.mem_cons.mp hm with hm | hm
        · cases hm
          unfold secondProduct at hc
          rw [if_neg (by rw [hk]; simp)] at hc
          exact (congrArg Prod.snd hc).trans (congrArg Prod.snd hm0).symm
        · exact k2 j' x' o' b' f' hm

/-- In a frame which is rotated or moves, the spin tensor of every decay chain of a fermion is the old one in the new frame. -/
theorem fermion_chain_frame (root : ℂ → ℂ) {Λ S inv : Matrix (Fin 4) (Fin 4) ℂ} (h : Lorentz Λ) (hdet : Λ.det = 1) (hS : SpinorFrame Gamma4Vec (Gamma 4) Λ S inv) (t : FermionTree)
    (hP : ∀ j x o a b, Tree.two j x o a b ∈ bosons t → minkowski (momentum (.two j x o a b)) (momentum (.two j x o a b)) ≠ 0)
    (hl : ∀ j x p s, Tree.leaf j x p s ∈ bosons t → IsState p s) :
    fermionTensor root (FermionTree.moved Λ S t) = (fermionTensor root t).map (Spinor.moved Λ S) := by
  have sym : ∀ b : Tree ℂ, (∀ d, d ∈ particles b → d ∈ bosons t) → ∀ s, spinTensor b = some s → ∀ T, s = .tensor T → ∀ μ ν, T μ ν = T ν μ := by
    intro b hb s hs T hT
    have := cascade_state b (fun j x o a c hm => hP j x o a c (hb _ hm)) (fun j x p s hm => hl j x p s (hb _ hm)) s hs
    rw [hT] at this
    exact this.1
  induction t with
  | leaf j x p s => rfl
  | one j x d ih => exact ih hP hl sym
  | first j x o f b ih =>
    have hf : ∀ d, d ∈ bosons f → d ∈ bosons (.first j x o f b) := fun d hd => by unfold bosons; exact List.mem_append_right _ hd
    have i := ih (fun j x o a b hm => hP j x o a b (hf _ hm)) (fun j x p s hm => hl j x p s (hf _ hm)) (fun b' hb' => sym b' fun d hd => hf _ (hb' d hd))
    have eP : FermionTree.P (.first j x o (FermionTree.moved Λ S f) (Tree.moved Λ b)) = Λ *ᵥ FermionTree.P (.first j x o f b) := fermion_P_moved Λ S (.first j x o f b)
    have sb := sym b fun d hd => by unfold bosons; exact List.mem_append_left _ hd
    unfold FermionTree.moved fermionTensor
    rw [i, (cascade_frame h hdet b).1, eP, fermion_P_moved, P_moved, (fermion_moved_twoSpin Λ S f).1, (fermion_moved_twoSpin Λ S f).2, (moved_twoSpin Λ b).1,
      (moved_twoSpin Λ b).2, ← Matrix.mulVec_sub]
    cases fermionTensor root f with
    | none => rfl
    | some s1 =>
      obtain ⟨r, hr⟩ : ∃ r, spinTensor b = r := ⟨_, rfl⟩
      rw [hr]
      cases r with
      | none => rfl
      | some s2 =>
        simp only [Option.map_some, Option.bind_some]
        unfold getFermionFactor
        split
        · rfl
        · exact fermion_vertex_frame root h hdet hS _ _ _ _ _ _ _ (sb s2 hr)
  | second j x o b f ih =>
    have hf : ∀ d, d ∈ bosons f → d ∈ bosons (.second j x o b f) := fun d hd => by unfold bosons; exact List.mem_append_right _ hd
    have i := ih (fun j x o a b hm => hP j x o a b (hf _ hm)) (fun j x p s hm => hl j x p s (hf _ hm)) (fun b' hb' => sym b' fun d hd => hf _ (hb' d hd))
    have eP : FermionTree.P (.second j x o (Tree.moved Λ b) (FermionTree.moved Λ S f)) = Λ *ᵥ FermionTree.P (.second j x o b f) := fermion_P_moved Λ S (.second j x o b f)
    have sb := sym b fun d hd => by unfold bosons; exact List.mem_append_left _ hd
    unfold FermionTree.moved fermionTensor
    rw [i, (cascade_frame h hdet b).1, eP, fermion_P_moved, P_moved, (fermion_moved_twoSpin Λ S f).1, (fermion_moved_twoSpin Λ S f).2, (moved_twoSpin Λ b).1,
      (moved_twoSpin Λ b).2, ← Matrix.mulVec_sub]
    obtain ⟨r, hr⟩ : ∃ r, spinTensor b = r := ⟨_, rfl⟩
    rw [hr]
    cases r with
    | none => rfl
    | some s2 =>
      cases fermionTensor root f with
      | none => rfl
      | some s1 =>
        simp only [Option.map_some, Option.bind_some]
        unfold getFermionFactor
        split
        · rfl
        · exact fermion_vertex_frame root h hdet hS _ _ _ _ _ _ _ (sb s2 hr)

/-- The product of the spin tensor with the conjugate of any other spinor, such as a state of polarisation of the decaying fermion, is the same number in both frames. -/
theorem fermion_chain_product (root : ℂ → ℂ) {Λ S inv : Matrix (Fin 4) (Fin 4) ℂ} (h : Lorentz Λ) (hdet : Λ.det = 1) (hS : SpinorFrame Gamma4Vec (Gamma 4) Λ S inv)
    (hu : Sᴴ * Gamma 3 = Gamma 3 * inv) (t : FermionTree)
    (hP : ∀ j x o a b, Tree.two j x o a b ∈ bosons t → minkowski (momentum (.two j x o a b)) (momentum (.two j x o a b)) ≠ 0)
    (hl : ∀ j x p s, Tree.leaf j x p s ∈ bosons t → IsState p s) (χ ψ : V4 ℂ) (ht : fermionTensor root t = some (.half ψ)) :
    ∃ ψ', fermionTensor root (FermionTree.moved Λ S t) = some (.half ψ') ∧ star (S *ᵥ χ) ⬝ᵥ (Gamma 3 *ᵥ ψ') = star χ ⬝ᵥ (Gamma 3 *ᵥ ψ) := by
  refine ⟨S *ᵥ ψ, by rw [fermion_chain_frame root h hdet hS t hP hl, ht]; rfl, ?_⟩
  rw [Matrix.star_mulVec, Matrix.mulVec_mulVec, ← Matrix.dotProduct_mulVec, Matrix.mulVec_mulVec, ← Matrix.mul_assoc, hu, Matrix.mul_assoc, hS.2.1, Matrix.mul_one]

/-- There is a square root with the usual values at one and four. -/
theorem root_exists : ∃ root : ℂ → ℂ, (∀ z, root z ^ 2 = z) ∧ root 1 = 1 ∧ root 4 = 2 ∧ root 16 = 4 := by
  have hs : ∀ z : ℂ, ∃ w, w ^ 2 = z := fun z => IsAlgClosed.exists_pow_nat_eq z (by norm_num)
  choose r hr using hs
  refine ⟨fun z => if z = 1 then 1 else if z = 4 then 2 else if z = 16 then 4 else r z, fun z => ?_, by simp, ?_, ?_⟩
  · by_cases h1 : z = 1
    · simp [h1]
    · by_cases h4 : z = 4
      · simp [h4]; norm_num
      · by_cases h16 : z = 16
        · simp [h16]; norm_num
        · simp [h1, h4, h16, hr]
  · norm_num
  · norm_num

/-- An antifermion at rest that decays by the coupling `S1` to an antifermion and a boson without spin, both at rest. -/
def wrongTree : FermionTree := .first 1 false "S1" (.leaf 1 false ![0, 0, 0, 1] (.half ![0, 0, 1, 0])) (.leaf 0 true ![0, 0, 0, 1] (.scalar 1))

theorem wrong_momentum : fermionMomentum wrongTree = ![0, 0, 0, 2] := by
  funext μ
  fin_cases μ <;> simp [wrongTree, fermionMomentum, momentum]
  norm_num

theorem slash_rest (E : ℂ) : slash (![0, 0, 0, E] : V4 ℂ) = E • Gamma 3 := by
  rw [slash_eq]
  unfold dirac
  rw [Gamma4Vec_eq, Gamma4Vec_eq, Gamma4Vec_eq, Gamma4Vec_eq]
  simp

/-- The decay product obeys the Dirac equation of an antifermion, but the spin tensor of the decaying antifermion does not. -/
theorem fermion_chain_state_counterexample (root : ℂ → ℂ) (hr : ∀ z, root z ^ 2 = z) (h1 : root 1 = 1) (h4 : root 4 = 2) :
    (∀ j x p s, FermionTree.leaf j x p s ∈ fermions wrongTree → IsSpinor Gamma4Vec x (root (minkowski p p)) p s) ∧
      minkowski (fermionMomentum wrongTree) (fermionMomentum wrongTree) ≠ 0 ∧
      ∃ s, fermionTensor root wrongTree = some s ∧
        ¬ IsSpinor Gamma4Vec wrongTree.positive (root (minkowski (fermionMomentum wrongTree) (fermionMomentum wrongTree))) (fermionMomentum wrongTree) s := by
  have e4 : minkowski (![0, 0, 0, 2] : V4 ℂ) ![0, 0, 0, 2] = 4 := by simp [minkowski]; norm_num
  refine ⟨?_, by rw [wrong_momentum, e4]; norm_num, ?_⟩
  · intro j x p s hm
    simp only [wrongTree, fermions, List.mem_cons, List.not_mem_nil, FermionTree.leaf.injEq, reduceCtorEq, or_false, false_or] at hm
    obtain ⟨rfl, rfl, rfl, rfl⟩ := hm
    have e1 : minkowski (![0, 0, 0, 1] : V4 ℂ) ![0, 0, 0, 1] = 1 := by simp [minkowski]
    rw [e1, h1]
    unfold IsSpinor SpinHalf
    rw [← slash_eq, slash_rest]
    funext a
    fin_cases a <;> simp [Gamma, Matrix.mulVec, dotProduct, Fin.sum_univ_four]
  · have eP : FermionTree.P wrongTree = ![0, 0, 0, 2] := by rw [fermion_P_momentum, wrong_momentum]
    have ed : dot (![0, 0, 0, 2] : V4 ℂ) ![0, 0, 0, 2] = 4 := by rw [dot_eq, e4]
    have hl : fermionCatalogue.lookup (vertexName (1, false) (1, false) (0, true) "S1") = some (.fS_S1, true) := by decide +kernel
    have ht : fermionTensor root wrongTree = some (.half (f_fS_S1 (spin1h 2 ![0, 0, 0, 2]) ![0, 0, 1, 0] 1)) := by
      unfold wrongTree at eP
      unfold wrongTree fermionTensor getFermionFactor
      rw [eP]
      simp only [fermionTensor, spinTensor, Option.bind_some, FermionTree.twoSpin, FermionTree.positive, Tree.twoSpin, Tree.positive, hl, projector, ed, h4]
      rfl
    refine ⟨_, ht, ?_⟩
    rw [wrong_momentum, e4, h4]
    unfold IsSpinor
    have ok := ((half_vertices_partial 2 ![0, 0, 0, 2] 0 (by norm_num) (by rw [e4]; norm_num) 1 _ (.inl ⟨rfl, rfl⟩) ![0, 0, 1, 0] 0 0 0 1).2.2.2.2.2.2.2.2.2.2.2.2.2.2.2.2.2.2 rfl).1
    intro hw
    have hp : wrongTree.positive = false := rfl
    rw [hp] at hw
    unfold SpinHalf at ok hw
    simp only at ok hw
    rw [ok] at hw
    have h0 := congrFun hw 0
    unfold f_fS_S1 spin1h at h0
    rw [slash_rest] at h0
    simp [Gamma, Matrix.mulVec, dotProduct, Fin.sum_univ_four, Matrix.mul_apply] at h0
    norm_num at h0

/-- A baryon of spin 3/2 is made in the decay of one of spin 1/2, and decays to a baryon and a pion; a vector meson that decays to two pions is made with it. -/
def exampleChain : FermionTree :=
  .second 1 true "P" (.two 2 true "P" (.leaf 0 true ![1, 0, 0, 2] (.scalar 1)) (.leaf 0 true ![0, 1, 0, 2] (.scalar 1)))
    (.first 1 true "P1" (.first 3 true "D" (.leaf 1 true ![0, 0, 0, 1] (.half ![1, 0, 0, 0])) (.leaf 0 true ![0, 0, 1, 3] (.scalar 1))) (.leaf 0 false ![-1, 0, 1, 3] (.scalar 1)))

/-- The example meets the hypotheses of the theorems, and has a spin tensor. -/
example (root : ℂ → ℂ) (h1 : root 1 = 1) : (∀ j x p s, FermionTree.leaf j x p s ∈ fermions exampleChain → IsSpinor Gamma4Vec x (root (minkowski p p)) p s) ∧
    (∀ j x o f b, FermionTree.first j x o f b ∈ fermions exampleChain →
      minkowski (fermionMomentum (.first j x o f b)) (fermionMomentum (.first j x o f b)) ≠ 0 ∧ ¬ (x = false ∧ o = "S1")) ∧
    (∀ j x o b f, FermionTree.second j x o b f ∈ fermions exampleChain →
      minkowski (fermionMomentum (.second j x o b f)) (fermionMomentum (.second j x o b f)) ≠ 0 ∧ ¬ (x = false ∧ o = "D1")) ∧
    (∀ j x o a b, Tree.two j x o a b ∈ bosons exampleChain → minkowski (momentum (.two j x o a b)) (momentum (.two j x o a b)) ≠ 0) ∧
    (∀ j x p s, Tree.leaf j x p s ∈ bosons exampleChain → IsState p s) := by
  refine ⟨?_, ?_, ?_, ?_, ?_⟩
  · intro j x p s hm
    simp only [exampleChain, fermions, List.mem_cons, List.not_mem_nil, FermionTree.leaf.injEq, reduceCtorEq, or_false, false_or] at hm
    obtain ⟨rfl, rfl, rfl, rfl⟩ := hm
    have e1 : minkowski (![0, 0, 0, 1] : V4 ℂ) ![0, 0, 0, 1] = 1 := by simp [minkowski]
    rw [e1, h1]
    unfold IsSpinor SpinHalf
    rw [← slash_eq, slash_rest]
    funext a
    fin_cases a <;> simp [Gamma, Matrix.mulVec, dotProduct, Fin.sum_univ_four]
  · intro j x o f b hm
    simp only [exampleChain, fermions, List.mem_cons, List.not_mem_nil, FermionTree.first.injEq, reduceCtorEq, or_false, false_or] at hm
    rcases hm with ⟨rfl, rfl, rfl, rfl, rfl⟩ | ⟨rfl, rfl, rfl, rfl, rfl⟩ <;> refine ⟨?_, by simp⟩ <;> simp [fermionMomentum, momentum, minkowski] <;> norm_num
  · intro j x o b f hm
    simp only [exampleChain, fermions, List.mem_cons, List.not_mem_nil, FermionTree.second.injEq, reduceCtorEq, or_false, false_or] at hm
    obtain ⟨rfl, rfl, rfl, rfl, rfl⟩ := hm
    refine ⟨?_, by simp⟩
    simp [fermionMomentum, momentum, minkowski]
    norm_num
  · intro j x o a b hm
    simp only [exampleChain, bosons, particles, List.mem_cons, List.mem_append, List.not_mem_nil, Tree.two.injEq, reduceCtorEq, or_false, false_or] at hm
    obtain ⟨rfl, rfl, rfl, rfl, rfl⟩ := hm
    simp [momentum, minkowski]
    norm_num
  · intro j x p s hm
    simp only [exampleChain, bosons, particles, List.mem_cons, List.mem_append, List.not_mem_nil, Tree.leaf.injEq, reduceCtorEq, or_false, false_or] at hm
    rcases hm with (⟨rfl, rfl, rfl, rfl⟩ | ⟨rfl, rfl, rfl, rfl⟩) | ⟨rfl, rfl, rfl, rfl⟩ | ⟨rfl, rfl, rfl, rfl⟩ <;> trivial

/-- The example has a spin tensor. -/
example (root : ℂ → ℂ) : ∃ s, fermionTensor root exampleChain = some s := by
  have hv : catalogue.lookup (vertexName (2, true) (0, true) (0, true) "P") = some .V_SS_P := by decide +kernel
  have n1 : vertexName (1, true) (2, true) (1, true) "P" ∈ fermionCatalogue.map Prod.fst := by decide +kernel
  have n2 : vertexName (1, true) (3, true) (0, false) "P1" ∈ fermionCatalogue.map Prod.fst := by decide +kernel
  have n3 : vertexName (3, true) (1, true) (0, true) "D" ∈ fermionCatalogue.map Prod.fst := by decide +kernel
  refine ((fermion_chain_spin root exampleChain ?_ ?_ ?_).2.1).mpr ⟨?_, ?_⟩
  · intro j x p s hm
    simp only [exampleChain, fermions, List.mem_cons, List.not_mem_nil, FermionTree.leaf.injEq, reduceCtorEq, or_false, false_or] at hm
    obtain ⟨rfl, rfl, rfl, rfl⟩ := hm
    rfl
  · intro j x d hm
    simp [exampleChain, fermions] at hm
  · intro b s hm hs
    simp only [exampleChain, bosons, particles, List.mem_cons, List.mem_append, List.not_mem_nil, or_false] at hm
    rcases hm with (rfl | rfl | rfl) | rfl | rfl
    · simp only [spinTensor, Option.bind_some, getSpinFactor, Tree.twoSpin, Tree.positive, hv, applyVertex, Option.some.injEq] at hs
      subst hs
      rfl
    all_goals
      simp only [spinTensor, Option.some.injEq] at hs
      subst hs
      rfl
  · intro j x o f b hm
    simp only [exampleChain, fermions, List.mem_cons, List.not_mem_nil, FermionTree.first.injEq, reduceCtorEq, or_false, false_or] at hm
    rcases hm with ⟨rfl, rfl, rfl, rfl, rfl⟩ | ⟨rfl, rfl, rfl, rfl, rfl⟩
    · exact ⟨⟨_, rfl⟩, n2⟩
    · exact ⟨⟨_, rfl⟩, n3⟩
  · intro j x o b f hm
    simp only [exampleChain, fermions, List.mem_cons, List.not_mem_nil, FermionTree.second.injEq, reduceCtorEq, or_false, false_or] at hm
    obtain ⟨rfl, rfl, rfl, rfl, rfl⟩ := hm
    refine ⟨?_, n1⟩
    simp only [spinTensor, Option.bind_some, getSpinFactor, Tree.twoSpin, Tree.positive, hv, applyVertex]
    exact ⟨_, rfl⟩

end AmpGen.Cascade
