import Verif.Cascade.FermionSpec
import Verif.Cascade.Props
/-
Lemmas on decay chains of fermions.
-/
namespace AmpGen.Cascade
open AmpGen.Vertex AmpGen.Vertex.Spec Spec Matrix

theorem fermion_P_momentum (t : FermionTree) : t.P = fermionMomentum t := by
  induction t with
  | leaf j x p s => rfl
  | one j x d ih => funext μ; unfold FermionTree.P fermionMomentum; rw [ih]; simp
  | first j x o f b ih => funext μ; unfold FermionTree.P fermionMomentum; rw [ih, P_momentum]; simp
  | second j x o b f ih => funext μ; unfold FermionTree.P fermionMomentum; rw [ih, P_momentum]; simp

theorem fermion_P_moved (Λ S : M4) (t : FermionTree) : (FermionTree.moved Λ S t).P = Λ *ᵥ t.P := by
  induction t with
  | leaf j x p s => rfl
  | one j x d ih => unfold FermionTree.moved FermionTree.P; rw [ih]; simp
  | first j x o f b ih => unfold FermionTree.moved FermionTree.P; rw [ih, P_moved]; simp [Matrix.mulVec_add]
  | second j x o b f ih => unfold FermionTree.moved FermionTree.P; rw [ih, P_moved]; simp [Matrix.mulVec_add]

theorem fermion_moved_twoSpin (Λ S : M4) (t : FermionTree) :
    (FermionTree.moved Λ S t).twoSpin = t.twoSpin ∧ (FermionTree.moved Λ S t).positive = t.positive := by
  cases t <;> exact ⟨rfl, rfl⟩

theorem spinChar_fermion {j : Nat} {x : Bool} {c : Char} (h : spinChar j x = c) :
    (c = 'f' → j = 1 ∧ x = true) ∧ (c = 'F' → j = 1 ∧ x = false) ∧ (c = 'r' → j = 3 ∧ x = true) ∧ (c = 'R' → j = 3 ∧ x = false) := by
  subst h
  unfold spinChar
  repeat' split
  all_goals simp_all

/-- Twice the spin of the decaying fermion, whether the fermion is the first decay product, and twice the spins of the fermion and the boson among the decay products. -/
def FermionName.spins : FermionName → Nat × Bool × Nat × Nat
  | .fS_S | .fS_P | .fS_S1 | .fS_P1 => (1, true, 1, 0)
  | .Vf_S | .Vf_P | .Vf_P1 | .Vf_D | .Vf_S1 | .Vf_SL | .Vf_SR | .Vf_P2 | .Vf_P3 | .Vf_D1 => (1, false, 1, 2)
  | .Tf_P => (1, false, 1, 4)
  | .r_fS_P | .r_fS_D => (3, true, 1, 0)
  | .rS_D | .rS_P | .rS_P1 => (1, true, 3, 0)

/-- The vertices by their orbital part. -/
def FermionName.orbital : FermionName → String
  | .fS_S | .Vf_S => "S"
  | .fS_P | .Vf_P | .Tf_P | .r_fS_P | .rS_P => "P"
  | .fS_S1 | .Vf_S1 => "S1"
  | .fS_P1 | .Vf_P1 | .rS_P1 => "P1"
  | .Vf_D | .r_fS_D | .rS_D => "D"
  | .Vf_SL => "SL"
  | .Vf_SR => "SR"
  | .Vf_P2 => "P2"
  | .Vf_P3 => "P3"
  | .Vf_D1 => "D1"

/-- The first decay product, with its sign if it is the fermion. -/
def firstProduct (v : FermionName × Bool) (a : Nat × Bool) : Prop :=
  if v.1.spins.2.1 = true then a = (v.1.spins.2.2.1, !v.2) else a.1 = v.1.spins.2.2.2

/-- The second decay product, with its sign if it is the fermion. -/
def secondProduct (v : FermionName × Bool) (b : Nat × Bool) : Prop :=
  if v.1.spins.2.1 = true then b.1 = v.1.spins.2.2.2 else b = (v.1.spins.2.2.1, !v.2)

/-- A vertex is found for the spins and signs in its name. -/
theorem fermion_name {m a b : Nat × Bool} {o : String} {v : FermionName × Bool} (h : fermionCatalogue.lookup (vertexName m a b o) = some v) :
    m = (v.1.spins.1, !v.2) ∧ firstProduct v a ∧ secondProduct v b ∧ o = v.1.orbital := by
  have hm := lookup_mem h
  unfold fermionCatalogue at hm
  have key : ∀ s : String, vertexName m a b o = s → s.toList = spinChar m.1 m.2 :: '_' :: spinChar a.1 a.2 :: spinChar b.1 b.2 :: '_' :: o.toList := by
    intro s hs
    rw [← hs, vertexName_list]
  obtain ⟨m1, m2⟩ := m
  obtain ⟨a1, a2⟩ := a
  obtain ⟨b1, b2⟩ := b
  simp only [List.mem_cons, Prod.mk.injEq, List.not_mem_nil, or_false] at hm
  rcases hm with hm | hm | hm | hm | hm | hm | hm | hm | hm | hm | hm | hm | hm | hm | hm | hm | hm | hm | hm | hm | hm | hm | hm | hm | hm | hm | hm | hm | hm | hm |
    hm | hm | hm | hm | hm | hm | hm | hm | hm | hm
  all_goals
    obtain ⟨hn, rfl⟩ := hm
    have h1 := key _ hn
    simp only [String.reduceToList, List.cons.injEq] at h1
    have s1 := spinChar_fermion h1.1.symm
    have s2 := spinChar_fermion h1.2.2.1.symm
    have s3 := spinChar_fermion h1.2.2.2.1.symm
    have b2' := spinChar_spin h1.2.2.1.symm
    have b3' := spinChar_spin h1.2.2.2.1.symm
    have ho := h1.2.2.2.2.2
    simp at s1 s2 s3 b2' b3'
    refine ⟨?_, ?_, ?_, ?_⟩
    · simp [s1, FermionName.spins]
    · simp [firstProduct, s2, b2', FermionName.spins]
    · simp [secondProduct, s3, b3', FermionName.spins]
    · unfold FermionName.orbital
      apply String.toList_injective
      simp only [String.reduceToList]
      exact ho.symm

/-- The ranks of what a vertex takes and gives. -/
theorem fermion_rank {v : FermionName} {F : M4} {P Q : V4 ℂ} {c : Bool} {f s : Spinor} {b : State ℂ} (h : applyFermion v F P Q c f b = some s) :
    v.spins = (Spinor.twoSpin s, c, Spinor.twoSpin f, State.twoSpin b) := by
  cases v <;> cases c <;> cases f <;> cases b <;> first | (simp only [applyFermion, reduceCtorEq] at h; done) | (simp only [applyFermion, Option.some.injEq] at h; subst h; rfl)

theorem fermion_rank_some {v : FermionName} {F : M4} {P Q : V4 ℂ} {c : Bool} {f : Spinor} {b : State ℂ}
    (h : v.spins.2 = (c, Spinor.twoSpin f, State.twoSpin b)) : ∃ s, applyFermion v F P Q c f b = some s := by
  cases v <;> cases c <;> cases f <;> cases b <;> first | exact ⟨_, rfl⟩ | (simp [FermionName.spins, Spinor.twoSpin, State.twoSpin] at h; done)

theorem mem_self_fermion (t : FermionTree) : t ∈ fermions t := by
  cases t <;> simp [fermions]

/-- The two vertices of antifermions with the projector of fermions. -/
def wrongVertex (v : FermionName × Bool) : Prop := v.2 = true ∧ (v.1 = .fS_S1 ∨ v.1 = .Vf_D1)

theorem fermion_vertex_state (root : ℂ → ℂ) (hr : ∀ z, root z ^ 2 = z) {v : FermionName × Bool} (hv : ¬ wrongVertex v) {P Q : V4 ℂ} (hP : minkowski P P ≠ 0) {c : Bool} {f s : Spinor}
    {b : State ℂ} (h : applyFermion v.1 (projector root v.1 v.2 P) P Q c f b = some s) : IsSpinor Gamma4Vec (!v.2) (root (minkowski P P)) P s := by
  obtain ⟨n, anti⟩ := v
  rw [← dot_eq] at hP ⊢
  have h2 : root (dot P P) ^ 2 = minkowski P P := by rw [hr, dot_eq]
  have hm : root (dot P P) ≠ 0 := by
    intro h0
    have := hr (dot P P)
    rw [h0] at this
    exact hP (by rw [← this]; ring)
  have hF : ((if (!anti) = true then (1 : ℂ) else -1) = 1 ∧ projector root n anti P = spin1h (root (dot P P)) P) ∨
      ((if (!anti) = true then (1 : ℂ) else -1) = -1 ∧ projector root n anti P = spin1hb (root (dot P P)) P) := by
    cases anti with
    | false => exact .inl ⟨by simp, by simp [projector]⟩
    | true =>
      refine .inr ⟨by simp, ?_⟩
      have : n ≠ .fS_S1 ∧ n ≠ .Vf_D1 := ⟨fun e => hv ⟨rfl, .inl e⟩, fun e => hv ⟨rfl, .inr e⟩⟩
      unfold projector
      rw [if_pos ⟨rfl, this.1, this.2⟩]
  have k := fun (V1 V2 : V4 ℂ) (T1 : T4 ℂ) (R1 : Fin 4 → V4 ℂ) (s2 : ℂ) => half_vertices_partial (root (dot P P)) P Q hm h2 _ _ hF V1 V2 T1 R1 s2
  have k3 := fun (V1 : V4 ℂ) (s2 : ℂ) => three_half_vertices (root (dot P P)) P Q hm h2 _ _ hF V1 s2
  have hs1 : n = .fS_S1 ∨ n = .Vf_D1 → (if (!anti) = true then (1 : ℂ) else -1) = 1 := by
    intro hn
    cases anti with
    | false => simp
    | true => exact absurd ⟨rfl, hn⟩ hv
  simp only at h k k3 ⊢
  generalize projector root n anti P = F at h k k3
  cases n <;> cases c <;> cases f <;> cases b <;> first | (simp only [applyFermion, reduceCtorEq] at h; done) | skip
  all_goals
    simp only [applyFermion, Option.some.injEq] at h
    subst h
    unfold IsSpinor
    simp only
  · exact (k _ 0 0 0 _).1
  · exact (k _ 0 0 0 _).2.1
  · exact ((k _ 0 0 0 _).2.2.2.2.2.2.2.2.2.2.2.2.2.2.2.2.2.2 (hs1 (.inl rfl))).1
  · exact (k _ 0 0 0 _).2.2.2.2.2.2.2.2.2.2.2.1
  · exact (k _ _ 0 0 0).2.2.1
  · exact (k _ _ 0 0 0).2.2.2.1
  · exact (k _ _ 0 0 0).2.2.2.2.1
  · exact (k _ _ 0 0 0).2.2.2.2.2.1
  · exact (k _ _ 0 0 0).2.2.2.2.2.2.1
  · exact (k _ _ 0 0 0).2.2.2.2.2.2.2.1
  · exact (k _ _ 0 0 0).2.2.2.2.2.2.2.2.1
  · exact (k _ _ 0 0 0).2.2.2.2.2.2.2.2.2.2.2.2.2.1
  · exact (k _ _ 0 0 0).2.2.2.2.2.2.2.2.2.2.2.2.2.2.1
  · exact ((k _ _ 0 0 0).2.2.2.2.2.2.2.2.2.2.2.2.2.2.2.2.2.2 (hs1 (.inr rfl))).2
  · exact (k 0 _ _ 0 0).2.2.2.2.2.2.2.2.2.2.2.2.1
  · exact (k3 _ _).1
  · exact (k3 _ _).2
  · exact (k 0 0 0 _ _).2.2.2.2.2.2.2.2.2.2.2.2.2.2.2.1
  · exact (k 0 0 0 _ _).2.2.2.2.2.2.2.2.2.2.2.2.2.2.2.2.1
  · exact (k 0 0 0 _ _).2.2.2.2.2.2.2.2.2.2.2.2.2.2.2.2.2.1

theorem fermion_vertex_frame (root : ℂ → ℂ) {Λ S inv : M4} (h : Lorentz Λ) (hdet : Λ.det = 1) (hS : SpinorFrame Gamma4Vec (Gamma 4) Λ S inv) (v : FermionName) (anti : Bool)
    (P Q : V4 ℂ) (c : Bool) (f : Spinor) (b : State ℂ) (hb : ∀ t, b = .tensor t → ∀ μ ν, t μ ν = t ν μ) :
    applyFermion v (projector root v anti (Λ *ᵥ P)) (Λ *ᵥ P) (Λ *ᵥ Q) c (Spinor.moved Λ S f) (State.moved Λ b) =
      (applyFermion v (projector root v anti P) P Q c f b).map (Spinor.moved Λ S) := by
  have hF : (projector root v anti P = spin1h (root (dot P P)) P ∧ projector root v anti (Λ *ᵥ P) = spin1h (root (dot P P)) (Λ *ᵥ P)) ∨
      (projector root v anti P = spin1hb (root (dot P P)) P ∧ projector root v anti (Λ *ᵥ P) = spin1hb (root (dot P P)) (Λ *ᵥ P)) := by
    unfold projector
    rw [lorentz_dot h]
    split
    · exact .inr ⟨rfl, rfl⟩
    · exact .inl ⟨rfl, rfl⟩
  have k := fun (V1 ψ : V4 ℂ) (T1 : T4 ℂ) (hT : ∀ μ ν, T1 μ ν = T1 ν μ) (R1 : Fin 4 → V4 ℂ) (s2 : ℂ) =>
    half_vertices_frame_partial h hdet hS (root (dot P P)) P Q _ _ hF V1 ψ T1 hT R1 s2
  have k3 := fun (ψ : V4 ℂ) (s2 : ℂ) => three_half_vertices_frame h hS (root (dot P P)) P Q _ _ hF ψ s2
  generalize projector root v anti P = F at k k3 ⊢
  generalize projector root v anti (Λ *ᵥ P) = F' at k k3 ⊢
  have z : ∀ μ ν : Fin 4, (0 : T4 ℂ) μ ν = (0 : T4 ℂ) ν μ := fun _ _ => rfl
  cases v <;> cases c <;> cases f <;> cases b <;> first | rfl | skip
  all_goals simp only [applyFermion, State.moved, Spinor.moved, Option.map_some, Option.some.injEq, Spinor.half.injEq, Spinor.threeHalf.injEq]
  · exact (k 0 _ 0 z 0 _).1
  · exact (k 0 _ 0 z 0 _).2.1
  · exact (k 0 _ 0 z 0 _).2.2.1
  · exact (k 0 _ 0 z 0 _).2.2.2.1
  · exact (k _ _ 0 z 0 0).2.2.2.2.1
  · exact (k _ _ 0 z 0 0).2.2.2.2.2.1
  · exact (k _ _ 0 z 0 0).2.2.2.2.2.2.1
  · exact (k _ _ 0 z 0 0).2.2.2.2.2.2.2.1
  · exact (k _ _ 0 z 0 0).2.2.2.2.2.2.2.2.1
  · exact (k _ _ 0 z 0 0).2.2.2.2.2.2.2.2.2.1
  · exact (k _ _ 0 z 0 0).2.2.2.2.2.2.2.2.2.2.1
  · exact (k _ _ 0 z 0 0).2.2.2.2.2.2.2.2.2.2.2.2.1
  · exact (k _ _ 0 z 0 0).2.2.2.2.2.2.2.2.2.2.2.2.2.1
  · exact (k _ _ 0 z 0 0).2.2.2.2.2.2.2.2.2.2.2.2.2.2.1
  · exact (k 0 _ _ (hb _ rfl) 0 0).2.2.2.2.2.2.2.2.2.2.2.1
  · exact (k3 _ _).1
  · exact (k3 _ _).2
  · exact (k 0 0 0 z _ _).2.2.2.2.2.2.2.2.2.2.2.2.2.2.2.1
  · exact (k 0 0 0 z _ _).2.2.2.2.2.2.2.2.2.2.2.2.2.2.2.2.1
  · exact (k 0 0 0 z _ _).2.2.2.2.2.2.2.2.2.2.2.2.2.2.2.2.2

end AmpGen.Cascade
