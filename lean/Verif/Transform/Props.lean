import Verif.Transform.Lemmas2
import Mathlib.LinearAlgebra.Matrix.NonsingularInverse
/-
Sequences of transformations.
-/
namespace AmpGen.Transform
open Complex Matrix

/-! ### Products -/

/-- The product of the matrices of a sequence: the first transformation acts first. -/
noncomputable def prodL {n : Nat} (f : Transform → Matrix (Fin n) (Fin n) ℂ) : List Transform → Matrix (Fin n) (Fin n) ℂ
  | [] => 1
  | t :: ts => prodL f ts * f t

theorem prodL_append {n : Nat} (f : Transform → Matrix (Fin n) (Fin n) ℂ) (l l' : List Transform) : prodL f (l ++ l') = prodL f l' * prodL f l := by
  induction l with
  | nil => simp [prodL]
  | cons t l ih => rw [List.cons_append, prodL, ih, prodL, mul_assoc]

/-- The inverse transformations in reverse order. -/
def invL (ts : List Transform) : List Transform := ts.reverse.map Transform.inverse

theorem invL_cons (t : Transform) (ts : List Transform) : invL (t :: ts) = invL ts ++ [t.inverse] := by
  unfold invL; simp

theorem prodL_inv {n : Nat} (f : Transform → Matrix (Fin n) (Fin n) ℂ) {ts : List Transform} (h : ∀ t ∈ ts, f t.inverse * f t = 1) :
    prodL f (invL ts) * prodL f ts = 1 := by
  induction ts with
  | nil => simp [prodL, invL]
  | cons t ts ih =>
    rw [invL_cons, prodL_append, prodL]
    simp only [prodL, one_mul]
    have h1 := ih fun t ht => h t (List.mem_cons_of_mem _ ht)
    have h2 := h t List.mem_cons_self
    calc f t.inverse * prodL f (invL ts) * (prodL f ts * f t) = f t.inverse * (prodL f (invL ts) * prodL f ts) * f t := by simp only [mul_assoc]
      _ = 1 := by rw [h1, mul_one, h2]

theorem build_fold_two (ts : List Transform) (m : M2) :
    ts.foldl (fun (rt : Option Tensor) (ti : Transform) => rt.bind fun r => (ti.matrix .spinor).mul r) (some (.two m)) = some (.two (prodL spin ts * m)) := by
  induction ts generalizing m with
  | nil => simp [prodL]
  | cons t ts ih =>
    rw [List.foldl_cons, Option.bind_some, matrix_spinor]
    show ts.foldl _ (some (Tensor.two (spin t * m))) = _
    rw [ih, prodL, mul_assoc]

theorem build_fold_four (repr : Repr) (f : Transform → M4) (hf : ∀ t : Transform, t.matrix repr = Tensor.four (f t)) (ts : List Transform) (m : M4) :
    ts.foldl (fun (rt : Option Tensor) (ti : Transform) => rt.bind fun r => (ti.matrix repr).mul r) (some (.four m)) = some (.four (prodL f ts * m)) := by
  induction ts generalizing m with
  | nil => simp [prodL]
  | cons t ts ih =>
    rw [List.foldl_cons, Option.bind_some, hf]
    show ts.foldl _ (some (Tensor.four (f t * m))) = _
    rw [ih, prodL, mul_assoc]

theorem build_spinor {ts : List Transform} (h : ts ≠ []) : buildCache ts .spinor = some (.two (prodL spin ts)) := by
  cases ts with
  | nil => exact absurd rfl h
  | cons t ts =>
    unfold buildCache
    simp only []
    rw [matrix_spinor, build_fold_two, prodL]

theorem build_four (repr : Repr) (f : Transform → M4) (hf : ∀ t : Transform, t.matrix repr = Tensor.four (f t)) (ts : List Transform) :
    buildCache ts repr = some (.four (prodL f ts)) := by
  cases ts with
  | nil => rfl
  | cons t ts =>
    unfold buildCache
    simp only []
    rw [hf, build_fold_four repr f hf, prodL]

theorem inverse_transforms (s : TransformSequence) : s.inverse.transforms = invL s.transforms ∧ s.inverse.cache = buildCache (invL s.transforms) := by
  unfold TransformSequence.inverse invL
  generalize s.transforms.reverse = l
  have : ∀ (l : List Transform) (rt : TransformSequence), rt.cache = buildCache rt.transforms →
      (l.foldl (fun (rt : TransformSequence) (t : Transform) => rt.push_back t.inverse) rt).transforms = rt.transforms ++ l.map Transform.inverse ∧
      (l.foldl (fun (rt : TransformSequence) (t : Transform) => rt.push_back t.inverse) rt).cache = buildCache (rt.transforms ++ l.map Transform.inverse) := by
    intro l
    induction l with
    | nil => intro rt h; simp [h]
    | cons t l ih =>
      intro rt h
      rw [List.foldl_cons]
      have h1 := ih (rt.push_back t.inverse) rfl
      have h2 : (rt.push_back t.inverse).transforms = rt.transforms ++ [t.inverse] := rfl
      rw [h2] at h1
      simpa using h1
  exact this l .empty rfl

/-- The matrices of every sequence that can be built. -/
theorem built_cache {s : TransformSequence} (hs : Built s) :
    s.matrix .vector = some (.four (prodL vect s.transforms)) ∧ s.matrix .bispinor = some (.four (prodL bisp s.transforms)) ∧
    (s.transforms ≠ [] → s.matrix .spinor = some (.two (prodL spin s.transforms))) := by
  have key : ∀ s : TransformSequence, s.cache = buildCache s.transforms →
      s.matrix .vector = some (.four (prodL vect s.transforms)) ∧ s.matrix .bispinor = some (.four (prodL bisp s.transforms)) ∧
      (s.transforms ≠ [] → s.matrix .spinor = some (.two (prodL spin s.transforms))) := by
    intro s h
    unfold TransformSequence.matrix
    rw [h]
    exact ⟨build_four _ _ matrix_vector _, build_four _ _ matrix_bispinor _, fun h => build_spinor h⟩
  induction hs with
  | empty => exact key _ rfl
  | single t => exact key _ rfl
  | pair t1 t2 =>
    unfold TransformSequence.matrix TransformSequence.pair
    simp only []
    rw [matrix_vector, matrix_vector, matrix_bispinor, matrix_bispinor, matrix_spinor, matrix_spinor]
    simp [Tensor.mul, prodL]
  | push s t => exact key _ rfl
  | pushAll s s' => exact key _ rfl
  | join s s' h1 h2 n1 n2 ih1 ih2 =>
    obtain ⟨a1, a2, a3⟩ := ih1
    obtain ⟨b1, b2, b3⟩ := ih2
    have a3 := a3 n1
    have b3 := b3 n2
    unfold TransformSequence.matrix at *
    unfold TransformSequence.join
    simp only []
    rw [a1, a2, a3, b1, b2, b3]
    simp [Tensor.mul, prodL_append]
  | inverse s h ih =>
    refine key _ ?_
    rw [(inverse_transforms s).1, (inverse_transforms s).2]

theorem slash_anticommute (p q : V4) : slash p * slash q + slash q * slash p = (2 * minkowski p q) • (1 : M4) := by
  rw [slash_eq, slash_eq, bis_mul, bis_mul]
  simp only [Q_mul, Q_add]
  ext i j
  fin_cases i <;> fin_cases j <;> simp [make_bispinor_operator, Q, minkowski] <;> ring

theorem slash_injective {p q : V4} (h : slash p = slash q) : p = q := by
  rw [slash_eq, slash_eq] at h
  have h00 := congrFun (congrFun h 0) 0
  have h20 := congrFun (congrFun h 2) 0
  have h21 := congrFun (congrFun h 2) 1
  have h30 := congrFun (congrFun h 3) 0
  simp [make_bispinor_operator, Q] at h00 h20 h21 h30
  have hI : I * I = -1 := I_mul_I
  funext i
  fin_cases i
  · show p 0 = q 0; linear_combination (h21 + h30) / 2
  · show p 1 = q 1; linear_combination (I * (h21 - h30)) / 2 + (p 1 - q 1) * hI
  · exact h20
  · exact h00

theorem covering_list {ts : List Transform} (h : ∀ t ∈ ts, Proper t) (p : V4) :
    prodL bisp ts * slash p * prodL bisp (invL ts) = slash ((prodL vect ts).mulVec p) ∧
    prodL spin ts * weyl p * (prodL spin ts).conjTranspose = weyl ((prodL vect ts).mulVec p) := by
  induction ts generalizing p with
  | nil => simp [prodL, invL]
  | cons t ts ih =>
    have h1 := ih (fun t ht => h t (List.mem_cons_of_mem _ ht)) ((vect t).mulVec p)
    have h2 := covering (h t List.mem_cons_self) p
    constructor
    · rw [invL_cons, prodL_append, prodL]
      simp only [prodL, one_mul]
      rw [← Matrix.mulVec_mulVec, ← h1.1, ← h2.2]
      simp only [mul_assoc]
    · simp only [prodL]
      rw [← Matrix.mulVec_mulVec, ← h1.2, ← h2.1, Matrix.conjTranspose_mul]
      simp only [mul_assoc]

/-! ### C65 -/

/-- C65.  Every sequence of proper transformations that is built by the constructors and member functions preserves the scalar product of four-vectors, its
`inverse` undoes it on four-vectors and on bispinors, and bispinors transform as four-vectors do: for Dirac's operator of `p`, transforming the operator gives
the operator of the transformed `p`. -/
theorem transform_lorentz (s : TransformSequence) (hs : Built s) (hp : ∀ t ∈ s.transforms, Proper t) :
    ∃ L L' S S' : M4, s.matrix .vector = some (.four L) ∧ s.inverse.matrix .vector = some (.four L') ∧
      s.matrix .bispinor = some (.four S) ∧ s.inverse.matrix .bispinor = some (.four S') ∧
      L' * L = 1 ∧ L * L' = 1 ∧ S' * S = 1 ∧ S * S' = 1 ∧
      (∀ p q, minkowski (L.mulVec p) (L.mulVec q) = minkowski p q) ∧ (∀ p, S * slash p * S' = slash (L.mulVec p)) := by
  obtain ⟨a1, a2, -⟩ := built_cache hs
  obtain ⟨b1, b2, -⟩ := built_cache (Built.inverse s hs)
  rw [(inverse_transforms s).1] at b1 b2
  have hp' : ∀ t ∈ invL s.transforms, Proper t := by
    intro t ht
    unfold invL at ht
    obtain ⟨u, hu, rfl⟩ := List.mem_map.mp ht
    exact (hp u (List.mem_reverse.mp hu)).inverse
  have hS : prodL bisp (invL s.transforms) * prodL bisp s.transforms = 1 := prodL_inv bisp fun t ht => (spin_inverse (hp t ht)).2
  have hS' : prodL bisp s.transforms * prodL bisp (invL s.transforms) = 1 := mul_eq_one_comm.mp hS
  have hii : invL (invL s.transforms) = s.transforms := by
    unfold invL
    rw [← List.map_reverse, List.reverse_reverse, List.map_map]
    conv_rhs => rw [← List.map_id s.transforms]
    exact List.map_congr_left fun t _ => inverse_inverse t
  have hc := fun p => (covering_list hp p).1
  have hc' := fun p => (covering_list hp' p).1
  rw [hii] at hc'
  have hL : prodL vect (invL s.transforms) * prodL vect s.transforms = 1 := by
    have : ∀ p : V4, (prodL vect (invL s.transforms) * prodL vect s.transforms).mulVec p = p := by
      intro p
      apply slash_injective
      rw [← Matrix.mulVec_mulVec, ← hc', ← hc]
      calc prodL bisp (invL s.transforms) * (prodL bisp s.transforms * slash p * prodL bisp (invL s.transforms)) * prodL bisp s.transforms
          = (prodL bisp (invL s.transforms) * prodL bisp s.transforms) * slash p * (prodL bisp (invL s.transforms) * prodL bisp s.transforms) := by simp only [mul_assoc]
        _ = slash p := by rw [hS, one_mul, mul_one]
    exact Matrix.ext_of_mulVec_single fun i => by rw [this, Matrix.one_mulVec]
  refine ⟨_, _, _, _, a1, b1, a2, b2, hL, mul_eq_one_comm.mp hL, hS, hS', ?_, hc⟩
  intro p q
  have h1 := slash_anticommute ((prodL vect s.transforms).mulVec p) ((prodL vect s.transforms).mulVec q)
  rw [← hc, ← hc] at h1
  have h2 : prodL bisp s.transforms * slash p * prodL bisp (invL s.transforms) * (prodL bisp s.transforms * slash q * prodL bisp (invL s.transforms)) +
      prodL bisp s.transforms * slash q * prodL bisp (invL s.transforms) * (prodL bisp s.transforms * slash p * prodL bisp (invL s.transforms)) =
      prodL bisp s.transforms * (slash p * slash q + slash q * slash p) * prodL bisp (invL s.transforms) := by
    have e : ∀ x y : M4, prodL bisp s.transforms * x * prodL bisp (invL s.transforms) * (prodL bisp s.transforms * y * prodL bisp (invL s.transforms)) =
        prodL bisp s.transforms * (x * y) * prodL bisp (invL s.transforms) := by
      intro x y
      calc _ = prodL bisp s.transforms * x * (prodL bisp (invL s.transforms) * prodL bisp s.transforms) * y * prodL bisp (invL s.transforms) := by simp only [mul_assoc]
        _ = _ := by rw [hS, mul_one]; simp only [mul_assoc]
    rw [e, e, mul_add, add_mul]
  rw [h2, slash_anticommute, Matrix.mul_smul, mul_one, Matrix.smul_mul, hS'] at h1
  have h3 := congrFun (congrFun h1 0) 0
  simp at h3
  exact h3.symm

/-- C65.  For every sequence with at least one transformation, two-component spinors transform as four-vectors do, and `inverse` undoes it. -/
theorem transform_spinor_partial (s : TransformSequence) (hs : Built s) (hp : ∀ t ∈ s.transforms, Proper t) (hne : s.transforms ≠ []) :
    ∃ (L : M4) (U U' : M2), s.matrix .vector = some (.four L) ∧ s.matrix .spinor = some (.two U) ∧ s.inverse.matrix .spinor = some (.two U') ∧
      U' * U = 1 ∧ U * U' = 1 ∧ ∀ p, U * weyl p * U.conjTranspose = weyl (L.mulVec p) := by
  obtain ⟨a1, -, a3⟩ := built_cache hs
  obtain ⟨-, -, b3⟩ := built_cache (Built.inverse s hs)
  rw [(inverse_transforms s).1] at b3
  have hU : prodL spin (invL s.transforms) * prodL spin s.transforms = 1 := prodL_inv spin fun t ht => (spin_inverse (hp t ht)).1
  refine ⟨_, _, _, a1, a3 hne, b3 ?_, hU, mul_eq_one_comm.mp hU, fun p => (covering_list hp p).2⟩
  unfold invL
  simpa using hne

example : Proper ⟨3 / 5, 0, 0, 1, .rotate⟩ ∧ Proper ⟨5 / 4, 3 / 5, 0, 4 / 5, .boost⟩ ∧
    Built ((TransformSequence.pair ⟨3 / 5, 0, 0, 1, .rotate⟩ ⟨5 / 4, 3 / 5, 0, 4 / 5, .boost⟩).push_back ⟨1, 0, 1, 0, .boost⟩) := by
  refine ⟨⟨by norm_num, by norm_num⟩, ⟨by norm_num, by norm_num⟩, .push _ _ (.pair _ _)⟩

/-- C65.  Joining sequences, or adding one transformation, applies the first before the second. -/
theorem transform_order (s s' : TransformSequence) (t : Transform) (hs : Built s) (hs' : Built s') (h : s.transforms ≠ []) (h' : s'.transforms ≠ []) (repr : Repr) :
    ∃ m m' : Tensor, s.matrix repr = some m ∧ s'.matrix repr = some m' ∧ (s.join s').matrix repr = m'.mul m ∧ (s.push_all s').matrix repr = m'.mul m ∧
      (s.push_back t).matrix repr = (t.matrix repr).mul m := by
  have hj := built_cache (Built.join s s' hs hs' h h')
  have ha := built_cache (Built.pushAll s s' hs hs')
  have hb := built_cache (Built.push s t hs)
  have h1 := built_cache hs
  have h2 := built_cache hs'
  have e1 : (s.join s').transforms = s.transforms ++ s'.transforms := rfl
  have e2 : (s.push_all s').transforms = s.transforms ++ s'.transforms := rfl
  have e3 : (s.push_back t).transforms = s.transforms ++ [t] := rfl
  rw [e1] at hj
  rw [e2] at ha
  rw [e3] at hb
  cases repr with
  | vector =>
    refine ⟨_, _, h1.1, h2.1, ?_, ?_, ?_⟩
    · rw [hj.1, prodL_append]; rfl
    · rw [ha.1, prodL_append]; rfl
    · rw [hb.1, prodL_append, matrix_vector]; simp [Tensor.mul, prodL]
  | bispinor =>
    refine ⟨_, _, h1.2.1, h2.2.1, ?_, ?_, ?_⟩
    · rw [hj.2.1, prodL_append]; rfl
    · rw [ha.2.1, prodL_append]; rfl
    · rw [hb.2.1, prodL_append, matrix_bispinor]; simp [Tensor.mul, prodL]
  | spinor =>
    refine ⟨_, _, h1.2.2 h, h2.2.2 h', ?_, ?_, ?_⟩
    · rw [hj.2.2 (by simp [h]), prodL_append]; rfl
    · rw [ha.2.2 (by simp [h]), prodL_append]; rfl
    · rw [hb.2.2 (by simp), prodL_append, matrix_spinor]; simp [Tensor.mul, prodL]

/-- C65.  A rotation turns vectors orthogonal to its axis by an angle with the cosine that was given, in the positive sense, keeps vectors along its axis
and all energies. -/
theorem transform_rotation (t : Transform) (ht : t.type = .rotate) (hp : Proper t) (x y z E : ℝ) :
    ∃ L : M4, t.matrix .vector = .four L ∧ L.mulVec (fun i => match i with | 0 => (t.kx : ℂ) | 1 => t.ky | 2 => t.kz | 3 => E) =
        (fun i => match i with | 0 => (t.kx : ℂ) | 1 => t.ky | 2 => t.kz | 3 => E) ∧
      (t.kx * x + t.ky * y + t.kz * z = 0 → L.mulVec (fun i => match i with | 0 => (x : ℂ) | 1 => y | 2 => z | 3 => E) =
        fun i => match i with
          | 0 => (t.arg * x + √(1 - t.arg ^ 2) * (t.ky * z - t.kz * y) : ℝ)
          | 1 => (t.arg * y + √(1 - t.arg ^ 2) * (t.kz * x - t.kx * z) : ℝ)
          | 2 => (t.arg * z + √(1 - t.arg ^ 2) * (t.kx * y - t.ky * x) : ℝ)
          | 3 => (E : ℂ)) := by
  have hk' : ((t.kx : ℂ)) ^ 2 + (t.ky : ℂ) ^ 2 + (t.kz : ℂ) ^ 2 = 1 := by exact_mod_cast congrArg (fun x : ℝ => (x : ℂ)) hp.1
  refine ⟨_, matrix_vector t, ?_, fun h => ?_⟩
  · rw [vect_rotate t ht _ rfl]
    funext i
    fin_cases i <;> simp only [hk'] <;> ring_nf
    · linear_combination (1 - (t.arg : ℂ)) * t.kx * hk'
    · linear_combination (1 - (t.arg : ℂ)) * t.ky * hk'
    · linear_combination (1 - (t.arg : ℂ)) * t.kz * hk'
  · have h' : (t.kx : ℂ) * x + t.ky * y + t.kz * z = 0 := by exact_mod_cast congrArg (fun x : ℝ => (x : ℂ)) h
    rw [vect_rotate t ht _ rfl]
    rw [show t.arg ^ 2 = t.arg * t.arg by ring]
    funext i
    fin_cases i <;> simp only [hk', h'] <;> push_cast <;> ring

/-- C65.  A boost with the Lorentz factor that was given brings a particle to rest that moves along the axis with this factor. -/
theorem transform_boost (t : Transform) (ht : t.type = .boost) (hp : Proper t) (m : ℝ) :
    ∃ L : M4, t.matrix .vector = .four L ∧
      L.mulVec (fun i => match i with
        | 0 => (m * √(t.arg ^ 2 - 1) * t.kx : ℝ)
        | 1 => (m * √(t.arg ^ 2 - 1) * t.ky : ℝ)
        | 2 => (m * √(t.arg ^ 2 - 1) * t.kz : ℝ)
        | 3 => (m * t.arg : ℝ)) = fun i => match i with | 0 => 0 | 1 => 0 | 2 => 0 | 3 => (m : ℂ) := by
  obtain ⟨hk, ha⟩ := hp
  rw [ht] at ha
  have hk' : ((t.kx : ℂ)) ^ 2 + (t.ky : ℂ) ^ 2 + (t.kz : ℂ) ^ 2 = 1 := by exact_mod_cast congrArg (fun x : ℝ => (x : ℂ)) hk
  have hs := Real.sq_sqrt (show (0 : ℝ) ≤ t.arg ^ 2 - 1 by nlinarith)
  have hs' : ((√(t.arg ^ 2 - 1) : ℝ) : ℂ) ^ 2 = (t.arg : ℂ) ^ 2 - 1 := by exact_mod_cast congrArg (fun x : ℝ => (x : ℂ)) hs
  refine ⟨_, matrix_vector t, ?_⟩
  rw [vect_boost t ht _ rfl, show t.arg * t.arg = t.arg ^ 2 by ring]
  funext i
  generalize √(t.arg ^ 2 - 1) = q at hs' ⊢
  fin_cases i <;> simp only [hk'] <;> push_cast
  · linear_combination ((t.arg : ℂ) - 1) * t.kx * m * q * hk'
  · linear_combination ((t.arg : ℂ) - 1) * t.ky * m * q * hk'
  · linear_combination ((t.arg : ℂ) - 1) * t.kz * m * q * hk'
  · linear_combination (-(m : ℂ) * q ^ 2) * hk' - (m : ℂ) * hs'

/-- C65 (counterexample).  The matrix of the empty sequence for two-component spinors has four rows, so that joining an empty sequence to another loses the
matrix for spinors altogether. -/
theorem transform_empty_counterexample (s : TransformSequence) (hs : Built s) (h : s.transforms ≠ []) :
    TransformSequence.empty.matrix .spinor = some (.four 1) ∧ (TransformSequence.empty.join s).matrix .spinor = none := by
  refine ⟨rfl, ?_⟩
  have h1 := (built_cache hs).2.2 h
  unfold TransformSequence.matrix at *
  unfold TransformSequence.join
  simp only []
  rw [h1]
  rfl

end AmpGen.Transform
