import Verif.Cascade.Spec
import Verif.Vertex.PropsLinear
/-
Lemmas on decay chains: which vertex a name selects, and how each vertex acts on states.
-/
namespace AmpGen.Cascade
open AmpGen.Vertex AmpGen.Vertex.Spec Spec Matrix

/-- Twice the spins of the particles of a vertex and the number of its orbital angular momentum. -/
def Name.spins : Name → Nat × Nat × Nat × Nat
  | .S_SS_S => (0, 0, 0, 0) | .S_VV_S => (0, 2, 2, 0) | .S_VV_S1 => (0, 2, 2, 0) | .S_VV_D => (0, 2, 2, 2) | .S_VV_P => (0, 2, 2, 1)
  | .S_VS_P => (0, 2, 0, 1) | .V_SS_P => (2, 0, 0, 1) | .V_VS_P => (2, 2, 0, 1) | .V_VS_S => (2, 2, 0, 0) | .V_VS_D => (2, 2, 0, 2)
  | .V_VV_P => (2, 2, 2, 1) | .V_VV_P1 => (2, 2, 2, 1) | .V_VV_P2 => (2, 2, 2, 1) | .V_VV_S => (2, 2, 2, 0) | .T_VS_D => (4, 2, 0, 2)
  | .T_TS_S => (4, 4, 0, 0) | .T_VS_P => (4, 2, 0, 1) | .T_SS_D => (4, 0, 0, 2) | .S_TV_P => (0, 4, 2, 1) | .S_TS_D => (0, 4, 0, 2)
  | .S_TV_D => (0, 4, 2, 2) | .S_TT_S => (0, 4, 4, 0) | .V_TS_P => (2, 4, 0, 1) | .V_TS_D => (2, 4, 0, 2)

theorem lookup_mem {α β : Type} [BEq α] [LawfulBEq α] {l : List (α × β)} {a : α} {b : β} (h : l.lookup a = some b) : (a, b) ∈ l := by
  induction l with
  | nil => simp at h
  | cons x l ih =>
    obtain ⟨y, c⟩ := x
    rw [List.lookup_cons] at h
    split at h
    · rename_i hb
      have := eq_of_beq hb
      cases h
      subst this
      exact List.mem_cons_self
    · exact List.mem_cons_of_mem _ (ih h)

/-- The character of a spin. -/
def spinChar (twoSpin : Nat) (positive : Bool) : Char :=
  if twoSpin = 0 then 'S' else if twoSpin = 2 then 'V' else if twoSpin = 4 then 'T' else if twoSpin = 6 then 'H'
  else if twoSpin = 1 then (if positive then 'f' else 'F')
  else if twoSpin = 3 then (if positive then 'r' else 'R')
  else if twoSpin = 5 then (if positive then 'e' else 'E')
  else if twoSpin = 7 then (if positive then 'c' else 'C')
  else '?'

theorem spinName_list (j : Nat) (x : Bool) : (spinName j x).toList = [spinChar j x] := by
  unfold spinName spinChar
  repeat' split
  all_goals rfl

theorem spinChar_spin {j : Nat} {x : Bool} {c : Char} (h : spinChar j x = c) : (c = 'S' → j = 0) ∧ (c = 'V' → j = 2) ∧ (c = 'T' → j = 4) := by
  subst h
  unfold spinChar
  repeat' split
  all_goals simp_all

theorem vertexName_list (m a b : Nat × Bool) (o : String) :
    (vertexName m a b o).toList = spinChar m.1 m.2 :: '_' :: spinChar a.1 a.2 :: spinChar b.1 b.2 :: '_' :: o.toList := by
  unfold vertexName
  simp [String.toList_append, spinName_list]

theorem name_spins {m a b : Nat × Bool} {o : String} {v : Name} (h : catalogue.lookup (vertexName m a b o) = some v) :
    v.spins = (m.1, a.1, b.1, orbitalNumber o) := by
  have hm := lookup_mem h
  unfold catalogue at hm
  have key : ∀ s : String, vertexName m a b o = s →
      s.toList = spinChar m.1 m.2 :: '_' :: spinChar a.1 a.2 :: spinChar b.1 b.2 :: '_' :: o.toList := by
    intro s hs
    rw [← hs, vertexName_list]
  simp only [List.mem_cons, Prod.mk.injEq, List.not_mem_nil, or_false] at hm
  rcases hm with hm | hm | hm | hm | hm | hm | hm | hm | hm | hm | hm | hm | hm | hm | hm | hm | hm | hm | hm | hm | hm | hm | hm | hm
  all_goals
    obtain ⟨hn, rfl⟩ := hm
    have h1 := key _ hn
    simp only [String.reduceToList, List.cons.injEq] at h1
    obtain ⟨e1, _, e2, e3, _, e4⟩ := h1
    have s1 := spinChar_spin e1.symm
    have s2 := spinChar_spin e2.symm
    have s3 := spinChar_spin e3.symm
    unfold orbitalNumber
    rw [← e4]
    simp at s1 s2 s3
    simp [Name.spins, s1, s2, s3]

section
variable {K : Type} [Field K]

theorem P_momentum (t : Tree K) : t.P = momentum t := by
  induction t with
  | leaf j x p s => rfl
  | one j x d ih => funext μ; unfold Tree.P momentum; rw [ih]; simp
  | two j x o a b iha ihb => funext μ; unfold Tree.P momentum; rw [iha, ihb]; simp
  | three j x a b c iha ihb ihc => funext μ; unfold Tree.P momentum; rw [iha, ihb, ihc]; simp
  | more j x p => rfl

theorem P_moved (Λ : Matrix (Fin 4) (Fin 4) K) (t : Tree K) : (Tree.moved Λ t).P = Λ *ᵥ t.P := by
  induction t with
  | leaf j x p s => rfl
  | one j x d ih => unfold Tree.moved Tree.P; rw [ih]; simp
  | two j x o a b iha ihb => unfold Tree.moved Tree.P; rw [iha, ihb]; simp [Matrix.mulVec_add]
  | three j x a b c iha ihb ihc => unfold Tree.moved Tree.P; rw [iha, ihb, ihc]; simp [Matrix.mulVec_add]
  | more j x p => rfl

theorem moved_twoSpin (Λ : Matrix (Fin 4) (Fin 4) K) (t : Tree K) : (Tree.moved Λ t).twoSpin = t.twoSpin ∧ (Tree.moved Λ t).positive = t.positive := by
  cases t <;> exact ⟨rfl, rfl⟩

theorem vertex_rank {v : Name} {P Q : V4 K} {s1 s2 s : State K} (h : applyVertex v P Q s1 s2 = some s) :
    v.spins.1 = State.twoSpin s ∧ v.spins.2.1 = State.twoSpin s1 ∧ v.spins.2.2.1 = State.twoSpin s2 := by
  cases v <;> cases s1 <;> cases s2 <;> first | (simp only [applyVertex, reduceCtorEq] at h; done) | (simp only [applyVertex, Option.some.injEq] at h; subst h; exact ⟨rfl, rfl, rfl⟩)

theorem vertex_rank_some {v : Name} {P Q : V4 K} {s1 s2 : State K} (h1 : v.spins.2.1 = State.twoSpin s1) (h2 : v.spins.2.2.1 = State.twoSpin s2) :
    ∃ s, applyVertex v P Q s1 s2 = some s := by
  cases v <;> cases s1 <;> cases s2 <;> first | exact ⟨_, rfl⟩ | (simp [Name.spins, State.twoSpin] at h1; done) | (simp [Name.spins, State.twoSpin] at h2; done)

theorem vertex_state [CharZero K] {v : Name} {P Q : V4 K} (hP : minkowski P P ≠ 0) {R1 R2 : V4 K} {s1 s2 s : State K} (h1 : IsState R1 s1) (_h2 : IsState R2 s2)
    (h : applyVertex v P Q s1 s2 = some s) : IsState P s := by
  have hT : ∀ t1 : T4 K, s1 = .tensor t1 → ∀ μ ν, t1 μ ν = t1 ν μ := by
    rintro t1 rfl
    exact h1.1
  cases v <;> cases s1 <;> cases s2 <;> first | (simp only [applyVertex, reduceCtorEq] at h; done) | (simp only [applyVertex, Option.some.injEq] at h; subst h; exact trivial) | skip
  all_goals
    simp only [applyVertex, Option.some.injEq] at h
    subst h
    unfold IsState
    simp only
  · exact (vector_vertices P Q hP 0 0 0 _ _).1
  · exact (vector_vertices P Q hP _ 0 0 0 _).2.1
  · exact (vector_vertices P Q hP _ 0 0 0 _).2.2.1
  · exact (vector_vertices P Q hP _ 0 0 0 _).2.2.2.1
  · exact (vector_vertices P Q hP _ _ 0 0 0).2.2.2.2.1
  · exact (vector_vertices P Q hP _ _ 0 0 0).2.2.2.2.2.1
  · exact (vector_vertices P Q hP _ _ 0 0 0).2.2.2.2.2.2.1
  · exact (vector_vertices P Q hP _ _ 0 0 0).2.2.2.2.2.2.2.1
  · exact (tensor_vertices P Q hP _ 0 (fun _ _ => rfl) 0 _).1
  · exact (tensor_vertices P Q hP 0 _ (hT _ rfl) 0 _).2.1
  · exact (tensor_vertices P Q hP _ 0 (fun _ _ => rfl) 0 _).2.2.1
  · exact (tensor_vertices P Q hP 0 0 (fun _ _ => rfl) _ _).2.2.2
  · exact (vector_vertices P Q hP 0 0 _ 0 _).2.2.2.2.2.2.2.2.1
  · exact (vector_vertices P Q hP 0 0 _ 0 _).2.2.2.2.2.2.2.2.2

end

end AmpGen.Cascade
