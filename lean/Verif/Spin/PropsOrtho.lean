import Mathlib.LinearAlgebra.Matrix.NonsingularInverse
import Mathlib.Data.Fintype.BigOperators
import Verif.Spin.Ortho2
/-
C105: the Clebsch-Gordan coefficients are a change of basis.  The spins of the two particles are `A / 2` and `B / 2`, the total spin is
`(A + B) / 2 - n` for `n = 0, ..., min A B`, and projections are written as a number `a = 0, ..., A` less the spin.
-/
namespace AmpGen.Spin
open Finset

/-- C105.  The states of total spin and projection that the coefficients describe have length one and are at right angles, for all spins. -/
theorem cg_orthonormal (A B n n' K K' : Nat) (h : n ≤ min A B) (h' : n' ≤ min A B) (hK : K ≤ A + B - 2 * n) (hK' : K' ≤ A + B - 2 * n') :
    ∑ a ∈ range (A + 1), ∑ b ∈ range (B + 1),
      CG (A / 2) (a - A / 2) (B / 2) (b - B / 2) ((A + B) / 2 - n) (K - ((A + B) / 2 - n)) *
      CG (A / 2) (a - A / 2) (B / 2) (b - B / 2) ((A + B) / 2 - n') (K' - ((A + B) / 2 - n')) =
    if n = n' ∧ K = K' then 1 else 0 := by
  have hc : ∀ n : Nat, n ≤ min A B → ((A : ℝ) + B) / 2 - n = ((A + B - 2 * n : Nat) : ℝ) / 2 := by
    intro n hn
    rw [Nat.cast_sub (by omega)]; push_cast; ring
  rw [hc n h, hc n' h']
  exact CG_ip A B n n' K K' (by omega) (by omega) (by omega) (by omega) (by omega) (by omega)

/-- Spins 1 and 3/2, total spins 5/2 and 1/2. -/
example : (0 : Nat) ≤ min 2 3 ∧ (2 : Nat) ≤ min 2 3 ∧ (4 : Nat) ≤ 2 + 3 - 2 * 0 ∧ (1 : Nat) ≤ 2 + 3 - 2 * 2 := by decide

theorem card_states (A B : Nat) : ∑ n ∈ range (min A B + 1), (A + B - 2 * n + 1) = (A + 1) * (B + 1) := by
  have h : ∀ m, m ≤ min A B → ∑ n ∈ range (m + 1), (A + B - 2 * n + 1) = (m + 1) * (A + B + 1 - m) := by
    intro m
    induction m with
    | zero => intro _; simp
    | succ m ih =>
      intro hm
      rw [sum_range_succ, ih (by omega)]
      obtain ⟨k, hk⟩ : ∃ k, A + B = 2 * (m + 1) + k := ⟨A + B - 2 * (m + 1), by omega⟩
      rw [hk, show 2 * (m + 1) + k + 1 - m = m + k + 3 by omega, show 2 * (m + 1) + k - 2 * (m + 1) + 1 = k + 1 by omega,
        show 2 * (m + 1) + k + 1 - (m + 1) = m + k + 2 by omega]
      ring
  rw [h _ le_rfl]
  rcases le_total A B with h | h
  · rw [min_eq_left h, show A + B + 1 - A = B + 1 by omega]
  · rw [min_eq_right h, show A + B + 1 - B = A + 1 by omega]; ring

/-- C105.  They are complete: summed over all total spins and projections, the coefficients give back each pair of projections and no other. -/
theorem cg_complete (A B a b a' b' : Nat) (ha : a ≤ A) (hb : b ≤ B) (ha' : a' ≤ A) (hb' : b' ≤ B) :
    ∑ n ∈ range (min A B + 1), ∑ K ∈ range (A + B - 2 * n + 1),
      CG (A / 2) (a - A / 2) (B / 2) (b - B / 2) ((A + B) / 2 - n) (K - ((A + B) / 2 - n)) *
      CG (A / 2) (a' - A / 2) (B / 2) (b' - B / 2) ((A + B) / 2 - n) (K - ((A + B) / 2 - n)) =
    if a = a' ∧ b = b' then 1 else 0 := by
  let I := (n : Fin (min A B + 1)) × Fin (A + B - 2 * n.1 + 1)
  let J := Fin (A + 1) × Fin (B + 1)
  let M : Matrix I J ℝ := fun i j => CG (A / 2) ((j.1 : Nat) - A / 2) (B / 2) ((j.2 : Nat) - B / 2) ((A + B) / 2 - (i.1 : Nat)) ((i.2 : Nat) - ((A + B) / 2 - (i.1 : Nat)))
  have hcard : Fintype.card I = Fintype.card J := by
    rw [Fintype.card_sigma, Fintype.card_prod, Fintype.card_fin, Fintype.card_fin, ← card_states A B, ← Fin.sum_univ_eq_sum_range]
    simp
  have h1 : M * M.transpose = 1 := by
    ext i j
    rw [Matrix.mul_apply, Fintype.sum_prod_type, Matrix.one_apply]
    have := cg_orthonormal A B i.1 j.1 i.2 j.2 (by have := i.1.2; omega) (by have := j.1.2; omega) (by have := i.2.2; omega) (by have := j.2.2; omega)
    rw [← Fin.sum_univ_eq_sum_range] at this
    simp only [← Fin.sum_univ_eq_sum_range] at this
    refine Eq.trans this ?_
    obtain ⟨⟨n, hn⟩, ⟨K, hK⟩⟩ := i
    obtain ⟨⟨n', hn'⟩, ⟨K', hK'⟩⟩ := j
    by_cases hnn : n = n'
    · subst hnn
      by_cases hKK : K = K'
      · subst hKK; simp
      · have hne : ¬ ((⟨⟨n, hn⟩, ⟨K, hK⟩⟩ : I) = ⟨⟨n, hn'⟩, ⟨K', hK'⟩⟩) := by
          intro he
          apply hKK
          have := congrArg (fun x : I => x.2.1) he
          exact this
        rw [if_neg hne, if_neg (fun h => hKK h.2)]
    · have hne : ¬ ((⟨⟨n, hn⟩, ⟨K, hK⟩⟩ : I) = ⟨⟨n', hn'⟩, ⟨K', hK'⟩⟩) := by
        intro he
        apply hnn
        have := congrArg (fun x : I => x.1.1) he
        exact this
      rw [if_neg hne, if_neg (fun h => hnn h.1)]
  have h2 : M.transpose * M = 1 := (Matrix.mul_eq_one_comm_of_card_eq (eq := hcard) ..).1 h1
  have h3 := congrFun (congrFun h2 (⟨a, by omega⟩, ⟨b, by omega⟩)) (⟨a', by omega⟩, ⟨b', by omega⟩)
  rw [Matrix.mul_apply, Matrix.one_apply, Fintype.sum_sigma] at h3
  rw [← Fin.sum_univ_eq_sum_range]
  simp only [← Fin.sum_univ_eq_sum_range]
  refine Eq.trans h3 ?_
  simp only [J, Prod.mk.injEq, Fin.mk.injEq]

/-- Projections 0 and 1/2 of spins 1 and 3/2. -/
example : (1 : Nat) ≤ 2 ∧ (2 : Nat) ≤ 3 := by decide

end AmpGen.Spin
