import Verif.Amplitude.Spec
import Verif.Comb.LemmasSym
import Mathlib.Analysis.SpecialFunctions.Pow.Real
/-
Lemmas about the assembly of an amplitude.
-/
namespace AmpGen.Amplitude

open Complex Comb

mutual
theorem propagator_eq (F : String → Node → ℂ) : ∀ t : Node, propagator F t = (t.decays.map (factor F)).prod
  | .mk name l [] => by simp [propagator, Node.decays]
  | .mk name l (d :: ds) => by
    have h1 := propagator_eq F d
    have h2 := propagators_eq F ds
    unfold propagator Node.decays
    rw [List.map_cons, List.map_append, List.prod_cons, List.prod_append, h1, h2, mul_assoc]
    congr 1
    unfold factor lineshapeUsed
    simp only [Node.daughters, Node.lineshape, List.length_cons]
    have e1 : "BW".toList = ['B', 'W'] := rfl
    have e2 : "FormFactor".toList = ['F', 'o', 'r', 'm', 'F', 'a', 'c', 't', 'o', 'r'] := rfl
    rw [e1, e2]
    rcases ds with _ | ⟨d2, _ | ⟨d3, ds⟩⟩
    · by_cases hb : contains ['B', 'W'] l.toList = true
      · simp [hb]
      · by_cases hf : contains ['F', 'o', 'r', 'm', 'F', 'a', 'c', 't', 'o', 'r'] l.toList = true
        · simp [hf]
        · simp [hb, hf]
    · simp
    · have g1 : ¬ (ds.length + 1 + 1 + 1 = 2) := by omega
      have g2 : ds.length + 1 + 1 + 1 ≥ 3 := by omega
      simp only [List.length_cons, if_neg g1, if_pos g2]
      by_cases hl : l = "BW"
      · rw [if_pos hl]; exact (if_pos hl).symm
      · rw [if_neg hl]; exact (if_neg hl).symm
theorem propagators_eq (F : String → Node → ℂ) : ∀ ts : List Node, propagators F ts = ((decaysOf ts).map (factor F)).prod
  | [] => by simp [propagators, decaysOf]
  | d :: ds => by
    have h1 := propagator_eq F d
    have h2 := propagators_eq F ds
    unfold propagators decaysOf
    rw [List.map_append, List.prod_append, h1, h2]
end

theorem exchanges_eq {n : Nat} (names : Fin n → String) : exchanges names = keeping names := rfl

theorem ordered_eq {n : Nat} {P : Type} (momenta : Nat → P) (σ : Equiv.Perm (Fin n)) :
    ordered momenta σ = (toIdx σ).map momenta := by
  unfold ordered toIdx
  rw [List.map_ofFn]; rfl

/-- The swaps of an ordering of identical particles can always be counted. -/
theorem minSwaps_some {n : Nat} (σ : Equiv.Perm (Fin n)) (names : Fin n → String) (fermion : String → Bool)
    (fuel : Nat) (hf : n < fuel) :
    ∃ ep, minSwaps fuel (toIdx σ) ((List.ofFn names).map fun s => if fermion s then (-1 : Int) else 1) = some ep := by
  rw [List.map_ofFn]
  exact ⟨_, minSwaps_eq σ _ fuel hf⟩

theorem sum_incoherent (fuel : Nat) (par : List Int) (m : Modifiers) (hn : m.noSym = false) (hi : m.inco = true)
    (prop spin : List Nat → ℂ) (R : List (List Nat)) (hR : ∀ o ∈ R, ∃ ep, minSwaps fuel o par = some ep) (z : ℂ) :
    sumOrderings fuel par m prop spin R z =
      some (z + (R.map fun o => ((normSq (prop o * if m.bgSpin0 then 1 else spin o) : ℝ) : ℂ)).sum) := by
  induction R generalizing z with
  | nil => simp [sumOrderings]
  | cons o R ih =>
    obtain ⟨ep, he⟩ := hR o (by simp)
    unfold sumOrderings
    rw [he]
    simp only [Option.bind_some, hn, hi, if_true, Bool.false_eq_true, if_false]
    rw [ih fun o' ho' => hR o' (by simp [ho'])]
    simp only [List.map_cons, List.sum_cons, ← add_assoc]
    congr 3
    exact (Complex.normSq_eq_conj_mul_self).symm

theorem sum_coherent (fuel : Nat) (par : List Int) (m : Modifiers) (hn : m.noSym = false) (hi : m.inco = false)
    (prop spin : List Nat → ℂ) (R : List (List Nat)) (s : List Nat → Int)
    (hR : ∀ o ∈ R, (minSwaps fuel o par).map Prod.snd = some (s o)) (z : ℂ) :
    sumOrderings fuel par m prop spin R z =
      some (z + (R.map fun o => (s o : ℂ) * (prop o * if m.bgSpin0 then 1 else spin o)).sum) := by
  induction R generalizing z with
  | nil => simp [sumOrderings]
  | cons o R ih =>
    have ho := hR o (by simp)
    cases he : minSwaps fuel o par with
    | none => rw [he] at ho; cases ho
    | some ep =>
      rw [he] at ho
      simp only [Option.map_some, Option.some.injEq] at ho
      unfold sumOrderings
      rw [he]
      simp only [Option.bind_some, hn, hi, Bool.false_eq_true, if_false]
      rw [ih fun o' ho' => hR o' (by simp [ho'])]
      simp only [List.map_cons, List.sum_cons, ← add_assoc, ho]

theorem sqrt_ofReal (x : ℝ) (hx : 0 ≤ x) : ((x : ℂ)) ^ (1 / 2 : ℂ) = (Real.sqrt x : ℂ) := by
  rw [Real.sqrt_eq_rpow, Complex.ofReal_cpow hx]
  norm_num

/-- The first ordering is the one in which the particles are given. -/
theorem orderings_head {n : Nat} (names : Fin n → String) (fuel : Nat) (R : List (List Nat))
    (h : identicalDaughterOrderings fuel (List.ofFn names) = some R) :
    ∃ rest, R = toIdx (1 : Equiv.Perm (Fin n)) :: rest := by
  unfold identicalDaughterOrderings at h
  rw [Option.map_eq_some_iff] at h
  obtain ⟨ps, h1, rfl⟩ := h
  have hid : toIdx (1 : Equiv.Perm (Fin n)) = List.range n := by
    unfold toIdx
    apply List.ext_getElem
    · simp
    · intro i h1 h2; simp
  have hp : ∃ rest, ps = List.range n :: rest := by
    rw [List.length_ofFn] at h1
    cases fuel with
    | zero => simp [permLoop] at h1
    | succ k =>
      unfold permLoop at h1
      split at h1
      · exact ⟨_, (Option.some.inj h1).symm⟩
      · rw [Option.map_eq_some_iff] at h1
        obtain ⟨a, _, h3⟩ := h1
        exact ⟨a, h3.symm⟩
  obtain ⟨rest, rfl⟩ := hp
  rw [hid]
  rw [List.filter_cons_of_pos]
  · exact ⟨_, rfl⟩
  · rw [List.all_eq_true]
    intro i hi
    rw [List.mem_range, List.length_ofFn] at hi
    simp [hi]

theorem minSwaps_one {n : Nat} (names : Fin n → String) (fermion : String → Bool) (fuel : Nat) (hf : n < fuel) :
    minSwaps fuel (toIdx (1 : Equiv.Perm (Fin n))) ((List.ofFn names).map fun s => if fermion s then (-1 : Int) else 1)
      = some (0, 1) := by
  rw [List.map_ofFn]
  have := minSwaps_eq (1 : Equiv.Perm (Fin n)) ((fun s => if fermion s then (-1 : Int) else 1) ∘ names) fuel hf
  unfold toIdx
  rw [this]
  simp

end AmpGen.Amplitude
