import Verif.Comb.LemmasSym
import Verif.Comb.LemmasPar
import Mathlib.Tactic.NormNum
import Mathlib.Logic.Equiv.Fin.Rotate
/-
C33 (enumeration of choices), C22 (exchange parity of identical particles) and
C46 (parallel helpers).
-/
namespace AmpGen.Comb

open Equiv.Perm

/-! ### C33 -/

/-- `nCr(n, r)` terminates and lists, in lexicographic order and hence without
repetition, exactly the increasing sequences of `r` numbers below `n`; there are
`n` choose `r` of them. -/
theorem nCr_enumerates (n r : Nat) (hr : r ≤ n) :
    ∃ N R, (∀ fuel, N ≤ fuel → nCr fuel n r = some R) ∧ R.Nodup ∧ R.Pairwise (· < ·) ∧
      R.length = n.choose r ∧
      ∀ c, c ∈ R ↔ c.Pairwise (· < ·) ∧ c.length = r ∧ ∀ i ∈ c, i < n := by
  obtain ⟨N, R, h1, h2, h3⟩ := nCr_correct n r hr
  exact ⟨N, R, h1, h2.imp fun h => ne_of_lt h, h2, choose_count n r R h2 h3, h3⟩

example : nCr 10 4 2 = some [[0, 1], [0, 2], [0, 3], [1, 2], [1, 3], [2, 3]] := by decide +kernel

/-- `all_combinations` is the Cartesian product, the last family varying fastest. -/
theorem all_combinations_product {α : Type} (elements : List (List α)) :
    allCombinations elements = product elements := allCombinations_eq elements

/-- It lists exactly the choices of one element from every family, one entry per tuple
of positions, and without repetition if no family repeats an element. -/
theorem all_combinations_enumerates {α : Type} (elements : List (List α)) :
    (∀ c, c ∈ allCombinations elements ↔ Chooses c elements) ∧
    (allCombinations elements).length = (elements.map List.length).prod ∧
    ((∀ e ∈ elements, e.Nodup) → (allCombinations elements).Nodup) := by
  rw [allCombinations_eq]
  exact ⟨mem_product elements, length_product elements, nodup_product elements⟩

example : allCombinations [[1, 2], [3], [4, 5]] = [[1, 3, 4], [1, 3, 5], [2, 3, 4], [2, 3, 5]] := by
  decide +kernel

/-! ### C22 -/

/-- The orderings of the final state used in the symmetrisation are exactly the
rearrangements that keep every name in place, each once. -/
theorem identical_orderings (names : List String) :
    ∃ N R, (∀ fuel, N ≤ fuel → identicalDaughterOrderings fuel names = some R) ∧ R.Nodup ∧
      ∀ p, p ∈ R ↔ p.Perm (List.range names.length) ∧
        ∀ i : Nat, i < names.length → names[i]? = (p[i]?.bind fun j => names[j]?) := by
  obtain ⟨N, R, h1, h2, h3⟩ := orderings_correct names
  exact ⟨N, R, h1, h2.imp fun h => ne_of_lt h, h3⟩

example : identicalDaughterOrderings 30 ["K-", "pi+", "pi+"] = some [[0, 1, 2], [0, 2, 1]] := by
  decide +kernel

/-- The number of swaps returned for a permutation has the parity of the permutation. -/
theorem swaps_sign {n : Nat} (σ : Equiv.Perm (Fin n)) (p : Fin n → Int) (fuel : Nat) (hf : n < fuel) :
    ∃ ans par, minSwaps fuel (List.ofFn fun i => ((σ i : Fin n) : Nat)) (List.ofFn p) = some (ans, par) ∧
      (-1 : ℤˣ) ^ ans = sign σ := by
  refine ⟨_, _, minSwaps_eq σ p fuel hf, ?_⟩
  rw [sign_swaps, sign_inv]

example : minSwaps 10 [1, 2, 0, 4, 3] [1, 1, 1, 1, 1] = some (3, 1) := by decide +kernel

/-- The parity returned is the sign of the permutation restricted to the fermions,
for every permutation that exchanges fermions only in pairs, whatever it does to the
bosons.  (Full claim: for every permutation; see the counterexample below.) -/
theorem exchange_parity_partial {n : Nat} (σ : Equiv.Perm (Fin n)) (F : Fin n → Prop) [DecidablePred F]
    (hF : ∀ x, F (σ x) ↔ F x) (hinv : ∀ x, F x → σ (σ x) = x) (fuel : Nat) (hf : n < fuel) :
    (minSwaps fuel (List.ofFn fun i => ((σ i : Fin n) : Nat))
      (List.ofFn fun i => if F i then -1 else 1)).map Prod.snd =
      some ((sign (σ.subtypePerm hF) : ℤˣ) : ℤ) := minSwaps_parity σ F hF hinv fuel hf

example : ∃ (σ : Equiv.Perm (Fin 3)) (F : Fin 3 → Prop), (∀ x, F (σ x) ↔ F x) ∧
    (∀ x, F x → σ (σ x) = x) ∧ σ ≠ 1 :=
  ⟨Equiv.swap 0 1, fun x => x = 0 ∨ x = 1, by decide, by decide, by decide⟩

/-- Three identical fermions permuted cyclically: an even permutation, to which the
code attributes the sign `-1`. -/
theorem exchange_parity_counterexample :
    minSwaps 10 [1, 2, 0] [-1, -1, -1] = some (2, -1) ∧
    ∃ σ : Equiv.Perm (Fin 3), (List.ofFn fun i => ((σ i : Fin 3) : Nat)) = [1, 2, 0] ∧ sign σ = 1 := by
  refine ⟨by decide +kernel, finRotate 3, by decide, by decide⟩

theorem fsign_swap {n : Nat} (names : Fin n → String) (fermion : String → Bool) (i j : Fin n)
    (hij : i ≠ j) (hname : names i = names j) :
    fsign names fermion (Equiv.swap i j) = if fermion (names i) then -1 else 1 := by
  have hk : Equiv.swap i j ∈ keeping names := by
    simp only [keeping, Finset.mem_filter, Finset.mem_univ, true_and]
    intro k
    by_cases h1 : k = i
    · subst h1; rw [Equiv.swap_apply_left, hname]
    · by_cases h2 : k = j
      · subst h2; rw [Equiv.swap_apply_right, hname]
      · rw [Equiv.swap_apply_of_ne_of_ne h1 h2]
  have hF := keeping_F hk fermion
  unfold fsign
  rw [dif_pos hF]
  by_cases hf : fermion (names i) = true
  · rw [if_pos hf]
    have hj : fermion (names j) = true := by rw [← hname]; exact hf
    have : (Equiv.swap i j).subtypePerm (p := fun x => fermion (names x) = true) hF =
        Equiv.swap ⟨i, hf⟩ ⟨j, hj⟩ := by
      ext x
      simp only [subtypePerm_apply, Equiv.swap_apply_def, Subtype.ext_iff]
      split
      · rfl
      · split
        · rfl
        · rfl
    rw [this, sign_swap (by simpa [Subtype.ext_iff] using hij)]
    rfl
  · rw [if_neg hf]
    have : (Equiv.swap i j).subtypePerm (p := fun x => fermion (names x) = true) hF = 1 := by
      ext x
      simp only [subtypePerm_apply, Equiv.Perm.one_apply]
      rw [Equiv.swap_apply_of_ne_of_ne]
      · intro h; exact hf (h ▸ x.2)
      · intro h; exact hf (by rw [hname]; exact h ▸ x.2)
    rw [this, sign_one]
    rfl

/-- Spin-statistics of the symmetrised amplitude: exchanging the momenta of two
identical particles multiplies it by `-1` if they are fermions and leaves it unchanged
if they are bosons, for any number of identical bosons and at most two fermions of each
species, and any single-ordering amplitude `f`.  (Full claim: without the restriction on
the number of fermions; see the counterexample below.) -/
theorem exchange_symmetry_partial {n : Nat} {A P : Type} [AddCommGroup A] (names : Fin n → String)
    (fermion : String → Bool) (hp : FermionPairs names fermion) (i j : Fin n) (hij : i ≠ j)
    (hname : names i = names j) :
    ∃ N, ∀ fuel, N ≤ fuel → ∀ (f : List P → A) (momenta : Nat → P), ∃ a b,
      symmetrised fuel (List.ofFn names) fermion (fun o => f (o.map momenta)) = some a ∧
      symmetrised fuel (List.ofFn names) fermion
        (fun o => f (o.map (momenta ∘ Equiv.swap (i : Nat) (j : Nat)))) = some b ∧
      b = if fermion (names i) then -a else a := by
  obtain ⟨N, hN⟩ := symmetrised_eq (A := A) names fermion hp
  refine ⟨N, fun fuel hf f momenta => ⟨_, _, hN fuel hf _, hN fuel hf _, ?_⟩⟩
  have hk : Equiv.swap i j ∈ keeping names := by
    simp only [keeping, Finset.mem_filter, Finset.mem_univ, true_and]
    intro k
    by_cases h1 : k = i
    · subst h1; rw [Equiv.swap_apply_left, hname]
    · by_cases h2 : k = j
      · subst h2; rw [Equiv.swap_apply_right, hname]
      · rw [Equiv.swap_apply_of_ne_of_ne h1 h2]
  have hmap : ∀ σ : Equiv.Perm (Fin n), (toIdx σ).map (momenta ∘ Equiv.swap (i : Nat) (j : Nat)) =
      (toIdx (Equiv.swap i j * σ)).map momenta := by
    intro σ
    unfold toIdx
    rw [List.map_ofFn, List.map_ofFn]
    congr 1
    funext k
    simp only [Function.comp, Equiv.Perm.mul_apply, Equiv.swap_apply_def, Fin.ext_iff]
    split
    · rfl
    · split <;> rfl
  have hs := fsign_swap names fermion i j hij hname
  have key : ∑ σ ∈ keeping names, fsign names fermion σ •
        f ((toIdx σ).map (momenta ∘ Equiv.swap (i : Nat) (j : Nat))) =
      fsign names fermion (Equiv.swap i j) •
        ∑ σ ∈ keeping names, fsign names fermion σ • f ((toIdx σ).map momenta) := by
    rw [Finset.smul_sum]
    refine Finset.sum_bij (fun σ _ => Equiv.swap i j * σ) (fun σ hσ => keeping_mul hk hσ)
      (fun a _ b _ h => mul_left_cancel h) (fun b hb => ⟨Equiv.swap i j * b, keeping_mul hk hb, ?_⟩) ?_
    · rw [← mul_assoc, Equiv.swap_mul_self, one_mul]
    · intro σ hσ
      rw [hmap, smul_smul, fsign_mul names fermion hk hσ, ← mul_assoc, hs]
      congr 1
      split <;> simp
  rw [key, hs]
  split <;> simp

example : FermionPairs (n := 4) ![ "p", "p", "pi0", "pi0" ] (fun s => s == "p") := by
  unfold FermionPairs; decide +kernel

/-- With three identical fermions the symmetrised amplitude is not antisymmetric. -/
theorem exchange_symmetry_counterexample :
    ∃ (f : List Nat → Int) (momenta : Nat → Nat) (a b : Int),
      symmetrised 10 ["p", "p", "p"] (fun s => s == "p") (fun o => f (o.map momenta)) = some a ∧
      symmetrised 10 ["p", "p", "p"] (fun s => s == "p")
        (fun o => f (o.map (momenta ∘ Equiv.swap 0 1))) = some b ∧ b ≠ -a := by
  refine ⟨fun l => if l = [0, 1, 2] then 1 else 0, fun i => (i + 1) % 3, -1, -1, ?_, ?_, by decide⟩
  · decide +kernel
  · decide +kernel

/-! ### C46 -/

/-- For a grain size of at least two, the parallel sort terminates with a sorted
rearrangement of its input, whatever sorting routine is used on the short ranges. -/
theorem parallel_sort_sorted_partial {α : Type} (sort : List α → List α) (lt : α → α → Bool)
    (hs : SortsBy sort lt) (h : StrictWeak lt) (grainsize : Nat) (hg : 2 ≤ grainsize) (l : List α) :
    ∃ r, (∀ fuel, l.length < fuel → parallelSort sort lt grainsize fuel l = some r) ∧
      r.Perm l ∧ r.Pairwise fun a b => lt b a = false := by
  obtain ⟨r, h1, h2, h3⟩ := parallelSort_correct hs h grainsize hg (l.length + 1) l (by omega)
  refine ⟨r, ?_, h2, h3⟩
  have mono : ∀ (n : Nat) (l r : List α), parallelSort sort lt grainsize n l = some r →
      parallelSort sort lt grainsize (n + 1) l = some r := by
    intro n
    induction n with
    | zero => intro l r h; simp [parallelSort] at h
    | succ n ih =>
      intro l r h
      unfold parallelSort at h ⊢
      split at h
      · rename_i hl; rw [if_pos hl]; exact h
      · rename_i hl
        rw [if_neg hl]
        obtain ⟨lo, h1, h2⟩ := Option.bind_eq_some_iff.mp h
        obtain ⟨hi, h3, h4⟩ := Option.bind_eq_some_iff.mp h2
        rw [ih _ _ h1, ih _ _ h3]
        exact h4
  intro fuel hf
  obtain ⟨k, rfl⟩ := Nat.exists_eq_add_of_le hf
  clear hf
  induction k with
  | zero => exact h1
  | succ k ih => exact mono _ _ _ ih

example : SortsBy (fun l => l.mergeSort fun a b => !decide ((b : Nat) < a)) (fun a b => decide (a < b)) ∧
    StrictWeak (fun a b : Nat => decide (a < b)) := by
  refine ⟨fun l => ⟨List.mergeSort_perm _ _, ?_⟩, ⟨?_, ?_⟩⟩
  · have := List.pairwise_mergeSort (le := fun a b => !decide ((b : Nat) < a))
      (fun a b c h1 h2 => by simp at *; omega) (fun a b => by simp; omega) l
    exact this.imp (by intro a b h; simpa using h)
  · intro a b h; simp at *; omega
  · intro a b c h1 h2; simp at *; omega

/-- With grain size one the recursion on a single element never ends. -/
theorem parallel_sort_counterexample (sort : List Nat → List Nat) :
    ∀ fuel, parallelSort sort (fun a b => decide (a < b)) 1 fuel [7] = none :=
  parallelSort_diverges sort _ 7

/-- The parallel accumulation returns the initial value plus the sum over all elements,
for every distribution of the iterations over threads and every order of execution and
combination. -/
theorem parallel_accumulate_sum {α A : Type} [AddCommMonoid A] (f : α → A) (init : A) (l : List α)
    (data : Nat → α) (hd : ∀ i (h : i < l.length), data i = l[i]) (threads : List (List Nat))
    (hsched : threads.flatten.Perm (List.range l.length)) :
    parallelAccumulate f init data threads = init + (l.map f).sum := by
  rw [accumulate_flatten, (hsched.map _).sum_eq]
  congr 2
  apply List.ext_getElem
  · simp
  · intro i h1 h2
    simp at h1
    simp [hd i h1]

example : ([[3, 1], [], [0, 2]] : List (List Nat)).flatten.Perm (List.range [5, 6, 7, 8].length) := by
  decide +kernel

end AmpGen.Comb
