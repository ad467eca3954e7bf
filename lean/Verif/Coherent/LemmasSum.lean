import Verif.Coherent.LemmasState
import Mathlib.Tactic.Abel
/-
Sums over samples, over amplitudes, and the identities behind norms, fractions and
components.
-/
namespace AmpGen.Coherent

variable {P X : Type} {W : Nat}

/-! ### Averages are linear -/

theorem sumOver_add {M : Type} [AddCommMonoid M] (evs : List (Fin W → SimEvent X)) (f g : SimEvent X → M) :
    sumOver evs (fun e => f e + g e) = sumOver evs f + sumOver evs g := by
  unfold sumOver
  simp only [Finset.sum_add_distrib]
  induction evs with
  | nil => simp
  | cons b evs ih => simp only [List.map_cons, List.sum_cons, ih]; abel

theorem sumOver_mul (evs : List (Fin W → SimEvent X)) (c : ℂ) (f : SimEvent X → ℂ) :
    sumOver evs (fun e => c * f e) = c * sumOver evs f := by
  unfold sumOver
  simp only [← Finset.mul_sum]
  rw [List.sum_map_mul_left]

theorem sumOver_zero {M : Type} [AddCommMonoid M] (evs : List (Fin W → SimEvent X)) :
    sumOver evs (fun _ => (0 : M)) = 0 := by
  unfold sumOver
  simp only [Finset.sum_const_zero]
  induction evs with
  | nil => simp
  | cons b evs ih => simp only [List.map_cons, List.sum_cons, ih, add_zero]

theorem sumOver_ofReal (evs : List (Fin W → SimEvent X)) (f : SimEvent X → ℝ) :
    sumOver evs (fun e => (f e : ℂ)) = ((sumOver evs f : ℝ) : ℂ) := by
  unfold sumOver
  induction evs with
  | nil => simp
  | cons b evs ih =>
    simp only [List.map_cons, List.sum_cons, ih]
    push_cast
    rfl

theorem sumOver_conj (evs : List (Fin W → SimEvent X)) (f : SimEvent X → ℂ) :
    (starRingEnd ℂ) (sumOver evs f) = sumOver evs fun e => (starRingEnd ℂ) (f e) := by
  unfold sumOver
  induction evs with
  | nil => simp
  | cons b evs ih =>
    simp only [List.map_cons, List.sum_cons, map_add, ih, map_sum]

theorem sumOver_nonneg (evs : List (Fin W → SimEvent X)) (f : SimEvent X → ℝ)
    (h : ∀ b ∈ evs, ∀ l, 0 ≤ f (b l)) : 0 ≤ sumOver evs f := by
  unfold sumOver
  apply List.sum_nonneg
  intro a ha
  rw [List.mem_map] at ha
  obtain ⟨b, hb, rfl⟩ := ha
  exact Finset.sum_nonneg fun l _ => h b hb l

theorem averageC_add (evs : List (Fin W → SimEvent X)) (f g : X → ℂ) :
    averageC evs (fun x => f x + g x) = averageC evs f + averageC evs g := by
  unfold averageC
  simp only [mul_add]
  rw [sumOver_add, add_div]

theorem averageC_mul (evs : List (Fin W → SimEvent X)) (c : ℂ) (f : X → ℂ) :
    averageC evs (fun x => c * f x) = c * averageC evs f := by
  unfold averageC
  have : (fun e : SimEvent X => (e.w : ℂ) * (c * f e.x)) = fun e => c * ((e.w : ℂ) * f e.x) := by
    funext e; ring
  rw [this, sumOver_mul, mul_div_assoc]

theorem averageC_zero (evs : List (Fin W → SimEvent X)) : averageC evs (fun _ => 0) = 0 := by
  unfold averageC
  simp only [mul_zero]
  rw [sumOver_zero, zero_div]

theorem averageC_conj (evs : List (Fin W → SimEvent X)) (f : X → ℂ) :
    (starRingEnd ℂ) (averageC evs f) = averageC evs fun x => (starRingEnd ℂ) (f x) := by
  unfold averageC
  rw [map_div₀, sumOver_conj, Complex.conj_ofReal]
  simp only [map_mul, Complex.conj_ofReal]

theorem averageC_ofReal (evs : List (Fin W → SimEvent X)) (f : X → ℝ) :
    averageC evs (fun x => (f x : ℂ)) = ((average evs f : ℝ) : ℂ) := by
  unfold averageC average
  have : (fun e : SimEvent X => (e.w : ℂ) * (f e.x : ℂ)) = fun e => ((e.w * f e.x : ℝ) : ℂ) := by
    funext e; push_cast; rfl
  rw [this, sumOver_ofReal]
  push_cast
  rfl

theorem averageC_list_sum {α : Type} (evs : List (Fin W → SimEvent X)) (f : α → X → ℂ) (l : List α) :
    averageC evs (fun x => (l.map fun a => f a x).sum) = (l.map fun a => averageC evs (f a)).sum := by
  induction l with
  | nil => simp only [List.map_nil, List.sum_nil]; exact averageC_zero evs
  | cons a l ih => simp only [List.map_cons, List.sum_cons]; rw [averageC_add, ih]

/-! ### Double sums -/

theorem foldl_list_sum {α M : Type} [AddCommMonoid M] (f : α → M) (l : List α) : ∀ a : M,
    l.foldl (fun v i => v + f i) a = a + (l.map f).sum := by
  induction l with
  | nil => intro a; simp
  | cons i l ih => intro a; rw [List.foldl_cons, ih]; simp [add_assoc]

theorem foldl_double {α β M : Type} [AddCommMonoid M] (f : α → β → M) (ks : List β) (l : List α) : ∀ a : M,
    l.foldl (fun v i => ks.foldl (fun v j => v + f i j) v) a = a + (l.map fun i => (ks.map (f i)).sum).sum := by
  induction l with
  | nil => intro a; simp
  | cons i l ih => intro a; rw [List.foldl_cons, ih, foldl_list_sum]; simp [add_assoc]

/-- The entry of the Hermitian matrix of integrals used by `norm()` and the fractions. -/
noncomputable def herm (norm : Nat → Nat → ℂ) (i j : Nat) : ℂ :=
  if j ≥ i then norm i j else (starRingEnd ℂ) (norm j i)

theorem ffSum_eq (coef : Nat → ℂ) (norm : Nat → Nat → ℂ) (is js : List Nat) :
    ffSum coef norm is js =
      (is.map fun i => (js.map fun j => coef i * (starRingEnd ℂ) (coef j) * herm norm i j).sum).sum := by
  exact (foldl_double (fun i j => coef i * (starRingEnd ℂ) (coef j) * herm norm i j) js is 0).trans
    (zero_add _)

theorem normOf_eq (n : Nat) (coef : Nat → ℂ) (norms : Nat → ℂ) :
    normOf n coef norms = (ffSum coef (fun i j => norms (i * n + j)) (List.range n) (List.range n)).re := by
  unfold normOf ffSum
  congr 2
  funext acc i
  congr 1
  funext acc j
  congr 2
  by_cases h : i > j
  · rw [if_pos h, if_neg (by omega)]
  · rw [if_neg h, if_pos (by omega)]

theorem herm_average (evs : List (Fin W → SimEvent X)) (a : Nat → X → ℂ) (norm : Nat → Nat → ℂ) (n : Nat)
    (h : ∀ i j, i ≤ j → j < n → norm i j = averageC evs fun x => a i x * (starRingEnd ℂ) (a j x))
    {i j : Nat} (hi : i < n) (hj : j < n) :
    herm norm i j = averageC evs fun x => a i x * (starRingEnd ℂ) (a j x) := by
  unfold herm
  by_cases hij : j ≥ i
  · rw [if_pos hij]; exact h i j hij hj
  · rw [if_neg hij, h j i (by omega) hi, averageC_conj]
    congr 1
    funext x
    simp [mul_comm]

theorem sum_mul_sum_list (l l' : List ℂ) : l.sum * l'.sum = (l.map fun a => (l'.map fun b => a * b).sum).sum := by
  induction l with
  | nil => simp
  | cons a l ih => simp only [List.sum_cons, List.map_cons, add_mul, ih]; rw [List.sum_map_mul_left]; simp

theorem conj_list_sum (l : List ℂ) : (starRingEnd ℂ) l.sum = (l.map (starRingEnd ℂ)).sum := by
  induction l with
  | nil => simp
  | cons a l ih => simp [ih]

theorem ffSum_average (evs : List (Fin W → SimEvent X)) (coef : Nat → ℂ) (a : Nat → X → ℂ)
    (norm : Nat → Nat → ℂ) (n : Nat)
    (h : ∀ i j, i ≤ j → j < n → norm i j = averageC evs fun x => a i x * (starRingEnd ℂ) (a j x))
    (is js : List Nat) (hi : ∀ i ∈ is, i < n) (hj : ∀ j ∈ js, j < n) :
    ffSum coef norm is js = averageC evs fun x =>
      (is.map fun i => coef i * a i x).sum * (starRingEnd ℂ) (js.map fun j => coef j * a j x).sum := by
  rw [ffSum_eq]
  have : (fun x => (is.map fun i => coef i * a i x).sum * (starRingEnd ℂ) (js.map fun j => coef j * a j x).sum) =
      fun x => (is.map fun i => (js.map fun j => coef i * (starRingEnd ℂ) (coef j) *
        (a i x * (starRingEnd ℂ) (a j x))).sum).sum := by
    funext x
    rw [conj_list_sum, sum_mul_sum_list, List.map_map]
    congr 1
    apply List.map_congr_left
    intro i _
    simp only [Function.comp_apply, List.map_map]
    congr 1
    apply List.map_congr_left
    intro j _
    simp only [Function.comp_apply, map_mul]
    ring
  rw [this, averageC_list_sum evs (fun i x => (js.map fun j => coef i * (starRingEnd ℂ) (coef j) *
        (a i x * (starRingEnd ℂ) (a j x))).sum)]
  congr 1
  apply List.map_congr_left
  intro i hi'
  rw [averageC_list_sum evs (fun j x => coef i * (starRingEnd ℂ) (coef j) * (a i x * (starRingEnd ℂ) (a j x)))]
  congr 1
  apply List.map_congr_left
  intro j hj'
  rw [averageC_mul, herm_average evs a norm n h (hi i hi') (hj j hj')]

theorem ffSum_self_average (evs : List (Fin W → SimEvent X)) (coef : Nat → ℂ) (a : Nat → X → ℂ)
    (norm : Nat → Nat → ℂ) (n : Nat)
    (h : ∀ i j, i ≤ j → j < n → norm i j = averageC evs fun x => a i x * (starRingEnd ℂ) (a j x))
    (is : List Nat) (hi : ∀ i ∈ is, i < n) :
    (ffSum coef norm is is).re = average evs fun x => Complex.normSq (is.map fun i => coef i * a i x).sum := by
  rw [ffSum_average evs coef a norm n h is is hi hi]
  simp only [Complex.mul_conj]
  rw [averageC_ofReal, Complex.ofReal_re]

theorem list_range_sum {M : Type} [AddCommMonoid M] (f : Nat → M) (n : Nat) :
    ((List.range n).map f).sum = ∑ i ∈ Finset.range n, f i := by
  have := foldl_range_sum f n 0
  rw [foldl_list_sum f (List.range n) 0] at this
  simpa using this

/-! ### Fractions of a partition -/

theorem herm_swap (coef : Nat → ℂ) (norm : Nat → Nat → ℂ) (i j : Nat) :
    (coef i * (starRingEnd ℂ) (coef j) * herm norm i j).re =
      (coef j * (starRingEnd ℂ) (coef i) * herm norm j i).re := by
  rcases Nat.lt_trichotomy i j with h | h | h
  · have h1 : herm norm i j = norm i j := by unfold herm; rw [if_pos (by omega)]
    have h2 : herm norm j i = (starRingEnd ℂ) (norm i j) := by unfold herm; rw [if_neg (by omega)]
    rw [h1, h2, ← Complex.conj_re]
    congr 1
    simp only [map_mul, Complex.conj_conj]
    ring
  · subst h; rfl
  · have h1 : herm norm j i = norm j i := by unfold herm; rw [if_pos (by omega)]
    have h2 : herm norm i j = (starRingEnd ℂ) (norm j i) := by unfold herm; rw [if_neg (by omega)]
    rw [h1, h2, ← Complex.conj_re]
    congr 1
    simp only [map_mul, Complex.conj_conj]
    ring

/-- The real part of the sum over two sets. -/
noncomputable def reSum (coef : Nat → ℂ) (norm : Nat → Nat → ℂ) (is js : List Nat) : ℝ :=
  (is.map fun i => (js.map fun j => (coef i * (starRingEnd ℂ) (coef j) * herm norm i j).re).sum).sum

theorem re_list_sum (l : List ℂ) : l.sum.re = (l.map Complex.re).sum := by
  induction l with
  | nil => simp
  | cons a l ih => simp [ih]

theorem ffSum_re (coef : Nat → ℂ) (norm : Nat → Nat → ℂ) (is js : List Nat) :
    (ffSum coef norm is js).re = reSum coef norm is js := by
  rw [ffSum_eq, re_list_sum, List.map_map]
  unfold reSum
  congr 1
  apply List.map_congr_left
  intro i _
  simp only [Function.comp_apply]
  rw [re_list_sum, List.map_map]
  rfl

theorem reSum_append_left (coef : Nat → ℂ) (norm : Nat → Nat → ℂ) (a b c : List Nat) :
    reSum coef norm (a ++ b) c = reSum coef norm a c + reSum coef norm b c := by
  simp [reSum]

theorem sum_map_add' {α : Type} (f g : α → ℝ) (l : List α) :
    (l.map fun i => f i + g i).sum = (l.map f).sum + (l.map g).sum := by
  induction l with
  | nil => simp
  | cons a l ih => simp only [List.map_cons, List.sum_cons, ih]; ring

theorem reSum_append_right (coef : Nat → ℂ) (norm : Nat → Nat → ℂ) (a b c : List Nat) :
    reSum coef norm c (a ++ b) = reSum coef norm c a + reSum coef norm c b := by
  unfold reSum
  simp only [List.map_append, List.sum_append]
  rw [sum_map_add']

theorem reSum_symm (coef : Nat → ℂ) (norm : Nat → Nat → ℂ) (a b : List Nat) :
    reSum coef norm a b = reSum coef norm b a := by
  induction a with
  | nil => simp [reSum]
  | cons i a ih =>
    have h1 : reSum coef norm (i :: a) b = reSum coef norm [i] b + reSum coef norm a b := by simp [reSum]
    have h2 : reSum coef norm b (i :: a) = reSum coef norm b [i] + reSum coef norm b a :=
      reSum_append_right coef norm [i] a b
    rw [h1, h2, ih]
    congr 1
    unfold reSum
    simp only [List.map_cons, List.map_nil, List.sum_cons, List.sum_nil, add_zero]
    congr 1
    apply List.map_congr_left
    intro j _
    exact herm_swap coef norm i j

theorem reSum_perm (coef : Nat → ℂ) (norm : Nat → Nat → ℂ) {a b : List Nat} (h : a.Perm b) :
    reSum coef norm a a = reSum coef norm b b := by
  have h1 : ∀ c, reSum coef norm a c = reSum coef norm b c := fun c => by
    unfold reSum; exact (h.map _).sum_eq
  rw [h1 a, reSum_symm, h1 b]

theorem reSum_flatten_right (coef : Nat → ℂ) (norm : Nat → Nat → ℂ) (a : List Nat) (gs : List (List Nat)) :
    reSum coef norm a gs.flatten = (gs.map fun g => reSum coef norm a g).sum := by
  induction gs with
  | nil =>
    simp only [List.flatten_nil, List.map_nil, List.sum_nil, reSum]
    induction a with
    | nil => simp
    | cons i a ih => simp [ih]
  | cons g gs ih =>
    simp only [List.flatten_cons, List.map_cons, List.sum_cons]
    rw [reSum_append_right, ih]

theorem reSum_partition (coef : Nat → ℂ) (norm : Nat → Nat → ℂ) (gs : List (List Nat)) :
    reSum coef norm gs.flatten gs.flatten =
      (gs.map fun g => reSum coef norm g g).sum +
        2 * ((crossPairs gs).map fun p => reSum coef norm p.1 p.2).sum := by
  induction gs with
  | nil => simp [reSum, crossPairs]
  | cons g gs ih =>
    simp only [List.flatten_cons, List.map_cons, List.sum_cons, crossPairs, List.map_append, List.sum_append,
      List.map_map]
    rw [reSum_append_left, reSum_append_right, reSum_append_right, ih, reSum_symm coef norm gs.flatten g,
      reSum_flatten_right]
    simp only [Function.comp_def]
    ring

/-! ### Components -/

theorem triangle (h : Nat → Nat → ℝ) (hs : ∀ i j, h i j = h j i) (n : Nat) :
    (∑ i ∈ Finset.range n, ∑ j ∈ Finset.range n, if i ≤ j then (if i = j then (1 : ℝ) else 2) * h i j else 0) =
      ∑ i ∈ Finset.range n, ∑ j ∈ Finset.range n, h i j := by
  induction n with
  | zero => simp
  | succ n ih =>
    simp only [Finset.sum_range_succ, Finset.sum_add_distrib]
    rw [ih]
    have e1 : ∑ i ∈ Finset.range n, (if i ≤ n then (if i = n then (1 : ℝ) else 2) * h i n else 0) =
        2 * ∑ i ∈ Finset.range n, h i n := by
      rw [Finset.mul_sum]
      apply Finset.sum_congr rfl
      intro i hi
      have := Finset.mem_range.mp hi
      rw [if_pos (by omega), if_neg (by omega)]
    have e2 : ∑ j ∈ Finset.range n, (if n ≤ j then (if n = j then (1 : ℝ) else 2) * h n j else 0) = 0 := by
      apply Finset.sum_eq_zero
      intro j hj
      have := Finset.mem_range.mp hj
      rw [if_neg (by omega)]
    have e3 : ∑ j ∈ Finset.range n, h n j = ∑ i ∈ Finset.range n, h i n :=
      Finset.sum_congr rfl fun i _ => hs n i
    rw [e1, e2, e3]
    simp only [le_refl, if_true]
    ring

theorem pairs_sum (n : Nat) (f : Nat → Nat → ℝ) : ((pairs n).map fun ij => f ij.1 ij.2).sum =
    ∑ i ∈ Finset.range n, ∑ j ∈ Finset.range n, if i ≤ j then f i j else 0 := by
  unfold pairs
  rw [← list_range_sum]
  generalize hl : List.range n = l
  have key : ∀ (l' : List Nat), ((l'.flatMap fun i => (l.filter fun j => i ≤ j).map fun j => (i, j)).map
      fun ij => f ij.1 ij.2).sum = (l'.map fun i => ∑ j ∈ Finset.range n, if i ≤ j then f i j else 0).sum := by
    intro l'
    induction l' with
    | nil => simp
    | cons i l' ih =>
      simp only [List.flatMap_cons, List.map_append, List.sum_append, List.map_cons, List.sum_cons, ih]
      congr 1
      rw [← list_range_sum, hl]
      clear ih hl
      induction l with
      | nil => simp
      | cons j l ih =>
        simp only [List.map_cons, List.sum_cons, List.filter_cons]
        by_cases hij : i ≤ j
        · rw [if_pos (by simpa using hij), if_pos hij]
          simp only [List.map_cons, List.sum_cons, ih]
        · rw [if_neg (by simpa using hij), if_neg hij, ih, zero_add]
  exact key l

theorem components_sum (n : Nat) (z : Nat → ℂ) :
    ((pairs n).map fun ij => (if ij.1 = ij.2 then (1 : ℝ) else 2) * (z ij.1 * (starRingEnd ℂ) (z ij.2)).re).sum =
      Complex.normSq (∑ i ∈ Finset.range n, z i) := by
  rw [pairs_sum n fun i j => (if i = j then (1 : ℝ) else 2) * (z i * (starRingEnd ℂ) (z j)).re]
  rw [triangle (fun i j => (z i * (starRingEnd ℂ) (z j)).re)]
  · have : ((Complex.normSq (∑ i ∈ Finset.range n, z i) : ℝ) : ℂ).re =
        Complex.normSq (∑ i ∈ Finset.range n, z i) := Complex.ofReal_re _
    rw [← this, ← Complex.mul_conj, map_sum, Finset.sum_mul_sum, Complex.re_sum]
    apply Finset.sum_congr rfl
    intro i _
    rw [Complex.re_sum]
  · intro i j
    simp only [Complex.mul_re, Complex.conj_re, Complex.conj_im]; ring

end AmpGen.Coherent
