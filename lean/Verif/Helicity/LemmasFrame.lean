import Verif.Helicity.Spec
import Verif.Transform.Props
/-
Frames: what a sequence of transformations does to momenta.
-/
namespace AmpGen.Helicity
open Complex
open AmpGen.Transform
open AmpGen.Polarisation (Mom Properties)
open AmpGen.Polarisation.Spec (cx cc OnShell)

/-- A sequence whose matrices are the products of those of its transformations, all of them proper. -/
structure Good (s : TransformSequence) : Prop where
  vector : s.matrix .vector = some (.four (prodL vect s.transforms))
  bispinor : s.matrix .bispinor = some (.four (prodL bisp s.transforms))
  proper : ∀ t ∈ s.transforms, Proper t

theorem good_of_cache {s : TransformSequence} (h : s.cache = buildCache s.transforms) (hp : ∀ t ∈ s.transforms, Proper t) : Good s := by
  refine ⟨?_, ?_, hp⟩ <;> unfold TransformSequence.matrix <;> rw [h]
  · exact build_four _ _ matrix_vector _
  · exact build_four _ _ matrix_bispinor _

theorem Good.empty : Good .empty := good_of_cache rfl (by intro t ht; simp [TransformSequence.empty] at ht)

theorem Good.single {t : Transform} (h : Proper t) : Good (.single t) := good_of_cache rfl (by intro u hu; simp [TransformSequence.single] at hu; rw [hu]; exact h)

theorem Good.push {s : TransformSequence} {t : Transform} (h : Good s) (ht : Proper t) : Good (s.push_back t) := by
  refine good_of_cache rfl ?_
  intro u hu
  simp only [TransformSequence.push_back, List.mem_append, List.mem_singleton] at hu
  rcases hu with hu | rfl
  · exact h.proper u hu
  · exact ht

theorem Good.join {s s' : TransformSequence} (h : Good s) (h' : Good s') : Good (s.join s') := by
  have h1 := h.vector
  have h2 := h'.vector
  have h3 := h.bispinor
  have h4 := h'.bispinor
  unfold TransformSequence.matrix at h1 h2 h3 h4
  refine ⟨?_, ?_, ?_⟩
  · unfold TransformSequence.matrix TransformSequence.join
    simp only []
    rw [h1, h2]
    simp [Tensor.mul, prodL_append]
  · unfold TransformSequence.matrix TransformSequence.join
    simp only []
    rw [h3, h4]
    simp [Tensor.mul, prodL_append]
  · intro u hu
    simp only [TransformSequence.join, List.mem_append] at hu
    rcases hu with hu | hu
    · exact h.proper u hu
    · exact h'.proper u hu

/-- The action of one transformation on a momentum. -/
noncomputable def act1 (t : Transform) (p : Mom) : Mom :=
  match t.type with
  | .rotate =>
    let s := √(1 - t.arg * t.arg)
    let n := t.kx * p 0 + t.ky * p 1 + t.kz * p 2
    let k := t.kx ^ 2 + t.ky ^ 2 + t.kz ^ 2
    ![p 0 + s * (t.ky * p 2 - t.kz * p 1) + (1 - t.arg) * (t.kx * n - k * p 0), p 1 + s * (t.kz * p 0 - t.kx * p 2) + (1 - t.arg) * (t.ky * n - k * p 1),
      p 2 + s * (t.kx * p 1 - t.ky * p 0) + (1 - t.arg) * (t.kz * n - k * p 2), p 3]
  | .boost =>
    let s := √(t.arg * t.arg - 1)
    let n := t.kx * p 0 + t.ky * p 1 + t.kz * p 2
    let k := t.kx ^ 2 + t.ky ^ 2 + t.kz ^ 2
    ![p 0 - s * t.kx * p 3 + (t.arg - 1) * t.kx * n, p 1 - s * t.ky * p 3 + (t.arg - 1) * t.ky * n, p 2 - s * t.kz * p 3 + (t.arg - 1) * t.kz * n,
      p 3 - s * n + (t.arg - 1) * k * p 3]

theorem act1_eq (t : Transform) (p : Mom) : (vect t).mulVec (cx p) = cx (act1 t p) := by
  rcases ht : t.type with _ | _
  · rw [vect_boost t ht _ rfl]
    unfold act1
    rw [ht]
    funext i
    fin_cases i <;> simp [cx] <;> ring
  · rw [vect_rotate t ht _ rfl]
    unfold act1
    rw [ht]
    funext i
    fin_cases i <;> simp [cx] <;> ring

/-- The action of a sequence. -/
noncomputable def act (ts : List Transform) (p : Mom) : Mom := ts.foldl (fun (p : Mom) (t : Transform) => act1 t p) p

theorem act_append (l l' : List Transform) (p : Mom) : act (l ++ l') p = act l' (act l p) := by
  unfold act; rw [List.foldl_append]

theorem act_eq (ts : List Transform) (p : Mom) : (prodL vect ts).mulVec (cx p) = cx (act ts p) := by
  induction ts generalizing p with
  | nil => simp [prodL, act]
  | cons t ts ih =>
    rw [prodL, ← Matrix.mulVec_mulVec, act1_eq, ih]
    rfl

theorem Good.apply {s : TransformSequence} (h : Good s) (p : Mom) : apply s p = some (act s.transforms p) := by
  unfold Helicity.apply
  rw [h.vector]
  simp only [act_eq]
  rfl

end AmpGen.Helicity
