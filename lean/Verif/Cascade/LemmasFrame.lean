import Verif.Cascade.Lemmas
/-
Lemmas on decay chains in another frame.
-/
namespace AmpGen.Cascade
open AmpGen.Vertex AmpGen.Vertex.Spec Spec Matrix

section
variable {K : Type} [Field K]

theorem times_times (c d : K) (s : State K) : State.times c (State.times d s) = State.times (c * d) s := by
  cases s <;> simp only [State.times, mul_assoc]

theorem times_one (s : State K) : State.times 1 s = s := by
  cases s <;> simp only [State.times, one_mul]

theorem moved_times (Λ : Matrix (Fin 4) (Fin 4) K) (c : K) (s : State K) : State.moved Λ (State.times c s) = State.times c (State.moved Λ s) := by
  cases s with
  | scalar s => rfl
  | vector v =>
    unfold State.times State.moved
    simp only [State.vector.injEq]
    exact Matrix.mulVec_smul Λ c v
  | tensor t =>
    unfold State.times State.moved
    simp only [State.tensor.injEq]
    funext μ ν
    exact move_smul Λ t c μ ν

theorem vertex_first (v : Name) (P Q : V4 K) (c : K) (s1 s2 : State K) :
    applyVertex v P Q (State.times c s1) s2 = (applyVertex v P Q s1 s2).map (State.times c) := by
  have L := fun (V2 : V4 K) (T2 : T4 K) (s2 : K) => vertices_linear_first P Q V2 T2 s2
  cases v <;> cases s1 <;> cases s2 <;> first | rfl | skip
  all_goals simp only [applyVertex, State.times, Option.map_some, Option.some.injEq, State.scalar.injEq, State.vector.injEq, State.tensor.injEq]
  · exact (L 0 0 _).1.map_smul c _
  · exact (L _ 0 0).2.1.map_smul c _
  · exact (L _ 0 0).2.2.1.map_smul c _
  · exact (L _ 0 0).2.2.2.1.map_smul c _
  · exact (L _ 0 0).2.2.2.2.1.map_smul c _
  · exact (L 0 0 _).2.2.2.2.2.1.map_smul c _
  · exact (L 0 0 _).2.2.2.2.2.2.1.map_smul c _
  · exact (L 0 0 _).2.2.2.2.2.2.2.1.map_smul c _
  · exact (L 0 0 _).2.2.2.2.2.2.2.2.1.map_smul c _
  · exact (L 0 0 _).2.2.2.2.2.2.2.2.2.1.map_smul c _
  · exact (L _ 0 0).2.2.2.2.2.2.2.2.2.2.1.map_smul c _
  · exact (L _ 0 0).2.2.2.2.2.2.2.2.2.2.2.1.map_smul c _
  · exact (L _ 0 0).2.2.2.2.2.2.2.2.2.2.2.2.1.map_smul c _
  · exact (L _ 0 0).2.2.2.2.2.2.2.2.2.2.2.2.2.1.map_smul c _
  · exact (L 0 0 _).2.2.2.2.2.2.2.2.2.2.2.2.2.2.1.map_smul c _
  · exact (L 0 0 _).2.2.2.2.2.2.2.2.2.2.2.2.2.2.2.1.map_smul c _
  · exact (L 0 0 _).2.2.2.2.2.2.2.2.2.2.2.2.2.2.2.2.1.map_smul c _
  · exact (L 0 0 _).2.2.2.2.2.2.2.2.2.2.2.2.2.2.2.2.2.1.map_smul c _
  · exact (L _ 0 0).2.2.2.2.2.2.2.2.2.2.2.2.2.2.2.2.2.2.1.map_smul c _
  · exact (L 0 0 _).2.2.2.2.2.2.2.2.2.2.2.2.2.2.2.2.2.2.2.1.map_smul c _
  · exact (L _ 0 0).2.2.2.2.2.2.2.2.2.2.2.2.2.2.2.2.2.2.2.2.1.map_smul c _
  · exact (L 0 _ 0).2.2.2.2.2.2.2.2.2.2.2.2.2.2.2.2.2.2.2.2.2.1.map_smul c _
  · exact (L 0 0 _).2.2.2.2.2.2.2.2.2.2.2.2.2.2.2.2.2.2.2.2.2.2.1.map_smul c _
  · exact (L 0 0 _).2.2.2.2.2.2.2.2.2.2.2.2.2.2.2.2.2.2.2.2.2.2.2.map_smul c _

theorem vertex_second {v : Name} (hv : v ≠ .V_TS_D) (P Q : V4 K) (c : K) (s1 s2 : State K) :
    applyVertex v P Q s1 (State.times c s2) = (applyVertex v P Q s1 s2).map (State.times c) := by
  have L := fun (V1 : V4 K) (T1 : T4 K) (s1 : K) => vertices_linear_second_partial P Q V1 T1 s1
  cases v <;> cases s1 <;> cases s2 <;> first | rfl | (exact absurd rfl hv) | skip
  all_goals simp only [applyVertex, State.times, Option.map_some, Option.some.injEq, State.scalar.injEq, State.vector.injEq, State.tensor.injEq]
  · exact (L 0 0 _).1.map_smul c _
  · exact (L _ 0 0).2.1.map_smul c _
  · exact (L _ 0 0).2.2.1.map_smul c _
  · exact (L _ 0 0).2.2.2.1.map_smul c _
  · exact (L _ 0 0).2.2.2.2.1.map_smul c _
  · exact (L _ 0 0).2.2.2.2.2.1.map_smul c _
  · exact (L 0 0 _).2.2.2.2.2.2.1.map_smul c _
  · exact (L _ 0 0).2.2.2.2.2.2.2.1.map_smul c _
  · exact (L _ 0 0).2.2.2.2.2.2.2.2.1.map_smul c _
  · exact (L _ 0 0).2.2.2.2.2.2.2.2.2.1.map_smul c _
  · exact (L _ 0 0).2.2.2.2.2.2.2.2.2.2.1.map_smul c _
  · exact (L _ 0 0).2.2.2.2.2.2.2.2.2.2.2.1.map_smul c _
  · exact (L _ 0 0).2.2.2.2.2.2.2.2.2.2.2.2.1.map_smul c _
  · exact (L _ 0 0).2.2.2.2.2.2.2.2.2.2.2.2.2.1.map_smul c _
  · exact (L _ 0 0).2.2.2.2.2.2.2.2.2.2.2.2.2.2.1.map_smul c _
  · exact (L 0 _ 0).2.2.2.2.2.2.2.2.2.2.2.2.2.2.2.1.map_smul c _
  · exact (L _ 0 0).2.2.2.2.2.2.2.2.2.2.2.2.2.2.2.2.1.map_smul c _
  · exact (L 0 0 _).2.2.2.2.2.2.2.2.2.2.2.2.2.2.2.2.2.1.map_smul c _
  · exact (L 0 _ 0).2.2.2.2.2.2.2.2.2.2.2.2.2.2.2.2.2.2.1.map_smul c _
  · exact (L 0 _ 0).2.2.2.2.2.2.2.2.2.2.2.2.2.2.2.2.2.2.2.1.map_smul c _
  · exact (L 0 _ 0).2.2.2.2.2.2.2.2.2.2.2.2.2.2.2.2.2.2.2.2.1.map_smul c _
  · exact (L 0 _ 0).2.2.2.2.2.2.2.2.2.2.2.2.2.2.2.2.2.2.2.2.2.1.map_smul c _
  · exact (L 0 _ 0).2.2.2.2.2.2.2.2.2.2.2.2.2.2.2.2.2.2.2.2.2.2.map_smul c _

theorem det_sq {Λ : Matrix (Fin 4) (Fin 4) K} (h : Lorentz Λ) : Λ.det * Λ.det = 1 := by
  have h1 := congrArg Matrix.det (lorentz_mat h)
  rw [Matrix.det_mul, Matrix.det_mul, Matrix.det_transpose] at h1
  have h2 : (eta : Matrix (Fin 4) (Fin 4) K).det ≠ 0 := by
    intro h0
    have := congrArg Matrix.det (eta_sq (K := K))
    rw [Matrix.det_mul, h0, Matrix.det_one] at this
    simp at this
  have h3 : (Λ.det * Λ.det - 1) * (eta : Matrix (Fin 4) (Fin 4) K).det = 0 := by linear_combination h1
  rcases mul_eq_zero.mp h3 with h4 | h4
  · exact sub_eq_zero.mp h4
  · exact absurd h4 h2

theorem det_pow {Λ : Matrix (Fin 4) (Fin 4) K} (h : Lorentz Λ) (n : Nat) : Λ.det ^ (2 * n) = 1 := by
  rw [pow_mul, pow_two, det_sq h, one_pow]

theorem det_pow_odd {Λ : Matrix (Fin 4) (Fin 4) K} (h : Lorentz Λ) (n : Nat) : Λ.det ^ (2 * n + 1) = Λ.det := by
  rw [pow_succ, det_pow h, one_mul]

/-- The sum of the spins and of the orbital angular momentum of a vertex. -/
def Name.total (v : Name) : Nat := v.spins.1 / 2 + v.spins.2.1 / 2 + v.spins.2.2.1 / 2 + v.spins.2.2.2

theorem vertex_frame {Λ : Matrix (Fin 4) (Fin 4) K} (h : Lorentz Λ) (v : Name) (P Q : V4 K) (s1 s2 : State K) :
    applyVertex v (Λ *ᵥ P) (Λ *ᵥ Q) (State.moved Λ s1) (State.moved Λ s2) =
      (applyVertex v P Q s1 s2).map fun s => State.times (Λ.det ^ v.total) (State.moved Λ s) := by
  have e0 := det_pow h 0
  have e1 := det_pow h 1
  have e2 := det_pow h 2
  have o1 := det_pow_odd h 1
  have o2 := det_pow_odd h 2
  simp only [Nat.mul_zero, Nat.reduceMul, Nat.reduceAdd] at e0 e1 e2 o1 o2
  have hs := fun (V1 V2 : V4 K) (T1 T2 : T4 K) (s2 : K) => scalar_vertices_frame h P Q V1 V2 T1 T2 s2
  have hv := fun (V1 V2 : V4 K) (T1 : T4 K) (s1 s2 : K) => vector_vertices_frame h P Q V1 V2 T1 s1 s2
  have ht := fun (V1 : V4 K) (T1 : T4 K) (s1 s2 : K) => tensor_vertices_frame h P Q V1 T1 s1 s2
  cases v <;> cases s1 <;> cases s2 <;> first | rfl | skip
  all_goals simp only [applyVertex, State.times, State.moved, Option.map_some, Option.some.injEq, State.scalar.injEq, State.vector.injEq, State.tensor.injEq,
    Name.total, Name.spins, Nat.reduceDiv, Nat.reduceAdd, e0, e1, e2, o1, o2, one_mul]
  · exact (hs _ _ 0 0 0).1
  · exact (hs _ _ 0 0 0).2.1
  · exact (hs _ _ 0 0 0).2.2.1
  · exact (hs _ _ 0 0 0).2.2.2.1
  · exact (hs _ 0 0 0 _).2.2.2.2.1
  · exact (hv 0 0 0 _ _).1
  · exact (hv _ 0 0 0 _).2.1
  · exact (hv _ 0 0 0 _).2.2.1
  · exact (hv _ 0 0 0 _).2.2.2.1
  · exact (hv _ _ 0 0 0).2.2.2.2.1
  · rename_i V1 V2
    rw [(hv V1 V2 0 0 0).2.2.2.2.2.1, det_sq h, one_smul]
  · exact (hv _ _ 0 0 0).2.2.2.2.2.2.1
  · exact (hv _ _ 0 0 0).2.2.2.2.2.2.2.1
  · exact (ht _ 0 0 _).1
  · exact (ht 0 _ 0 _).2.1
  · exact (ht _ 0 0 _).2.2.1
  · exact (ht 0 0 _ _).2.2.2
  · exact (hs 0 _ _ 0 0).2.2.2.2.2.1
  · exact (hs 0 0 _ 0 _).2.2.2.2.2.2.1
  · exact (hs 0 _ _ 0 0).2.2.2.2.2.2.2.1
  · exact (hs 0 0 _ _ 0).2.2.2.2.2.2.2.2
  · exact (hv 0 0 _ 0 _).2.2.2.2.2.2.2.2.1
  · exact (hv 0 0 _ 0 _).2.2.2.2.2.2.2.2.2

theorem factor_frame {Λ : Matrix (Fin 4) (Fin 4) K} (h : Lorentz Λ) (P Q : V4 K) (s1 s2 : State K) (m a b : Nat × Bool) (o : String) :
    getSpinFactor (Λ *ᵥ P) (Λ *ᵥ Q) (State.moved Λ s1) (State.moved Λ s2) (vertexName m a b o) =
      (getSpinFactor P Q s1 s2 (vertexName m a b o)).map fun s => State.times (Λ.det ^ (m.1 / 2 + a.1 / 2 + b.1 / 2 + orbitalNumber o)) (State.moved Λ s) := by
  unfold getSpinFactor
  obtain ⟨r, hr⟩ : ∃ r, catalogue.lookup (vertexName m a b o) = r := ⟨_, rfl⟩
  rw [hr]
  cases r with
  | none => rfl
  | some v =>
    simp only
    have e := name_spins hr
    have et : v.total = m.1 / 2 + a.1 / 2 + b.1 / 2 + orbitalNumber o := by
      unfold Name.total
      rw [e]
    rw [vertex_frame h, et]

/-- The vertex of a name which ignores the state of its second decay product. -/
theorem name_ignores {m a b : Nat × Bool} {o : String} (h : catalogue.lookup (vertexName m a b o) = some .V_TS_D) :
    m.1 = 2 ∧ a.1 = 4 ∧ b.1 = 0 ∧ orbitalNumber o = 2 := by
  have := name_spins h
  simp only [Name.spins, Prod.mk.injEq] at this
  exact ⟨this.1.symm, this.2.1.symm, this.2.2.1.symm, this.2.2.2.symm⟩

theorem factor_times (P Q : V4 K) (c d : K) (s1 s2 : State K) (m a b : Nat × Bool) (o : String)
    (hn : ¬ (m.1 = 2 ∧ a.1 = 4 ∧ b.1 = 0 ∧ orbitalNumber o = 2) ∨ d = 1) :
    getSpinFactor P Q (State.times c s1) (State.times d s2) (vertexName m a b o) =
      (getSpinFactor P Q s1 s2 (vertexName m a b o)).map (State.times (c * d)) := by
  unfold getSpinFactor
  obtain ⟨r, hr⟩ : ∃ r, catalogue.lookup (vertexName m a b o) = r := ⟨_, rfl⟩
  rw [hr]
  cases r with
  | none => rfl
  | some v =>
    simp only
    rw [vertex_first]
    rcases hn with hn | rfl
    · have hv : v ≠ .V_TS_D := by
        rintro rfl
        exact hn (name_ignores hr)
      rw [vertex_second hv]
      cases applyVertex v P Q s1 s2 with
      | none => rfl
      | some s => simp only [Option.map_some, times_times]
    · rw [times_one, mul_one]

end

end AmpGen.Cascade
