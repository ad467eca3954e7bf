import Verif.Amplitude.Lemmas
import Verif.Comb.Props
/-
C149 (the amplitude of one decay chain).
-/
namespace AmpGen.Amplitude

open Complex Comb

/-! ### The product of the lineshapes -/

/-- The dynamical part of the amplitude is the product of the lineshapes of all the decays
in the chain, each once: `BW` is read as `SBW` in a decay to three or more, and a node with
a single product contributes no Breit-Wigner and no form factor. -/
theorem lineshape_product (factory : String → Node → ℂ) (t : Node) :
    propagator factory t = (t.decays.map (factor factory)).prod := propagator_eq factory t

example : (Node.mk "D0" "BW" [.mk "K(1)(1270)+" "BW" [.mk "rho(770)0" "GounarisSakurai" [.mk "pi+" "BW" [], .mk "pi-" "BW" []],
    .mk "K+" "BW" []], .mk "pi-" "BW" []]).decays.length = 3 := by
  simp [Node.decays, decaysOf]

/-! ### The incoherent sum -/

/-- With the modifier `Inco` the amplitude is the root mean square of the amplitudes of the
orderings of identical particles: whatever the number of fermions among them. -/
theorem incoherent_amplitude {n : Nat} {P : Type} (names : Fin n → String) (fermion : String → Bool)
    (bgSpin0 constant : Bool) :
    ∃ N, ∀ fuel, N ≤ fuel → ∀ (lineshapes spin : List P → ℂ) (momenta : Nat → P),
      getExpression fuel (List.ofFn names) fermion ⟨false, true, bgSpin0⟩ constant
          (fun o => lineshapes (o.map momenta)) (fun o => spin (o.map momenta)) =
        some (Real.sqrt ((∑ σ ∈ exchanges names, ‖lineshapes (ordered momenta σ) *
          (if bgSpin0 then 1 else spin (ordered momenta σ))‖ ^ 2) / (exchanges names).card) : ℂ) := by
  obtain ⟨N, R, h1, h2⟩ := orderings_perm names
  refine ⟨N + n + 1, fun fuel hf lineshapes spin momenta => ?_⟩
  unfold getExpression
  rw [h1 fuel (by omega)]
  simp only [Option.bind_some]
  rw [sum_incoherent _ _ _ rfl rfl]
  · simp only [Option.map_some, if_true, Bool.false_eq_true, if_false, zero_add]
    congr 1
    have hl : R.length = (exchanges names).card := by
      rw [h2.length_eq, List.length_map, Finset.length_toList, exchanges_eq]
    rw [hl, (h2.map _).sum_eq, List.map_map, Finset.sum_map_toList]
    have : (∑ σ ∈ keeping names, ((fun o => ((normSq (lineshapes (o.map momenta) *
        if bgSpin0 = true then 1 else spin (o.map momenta)) : ℝ) : ℂ)) ∘ toIdx) σ) / ((exchanges names).card : ℂ) =
        (((∑ σ ∈ exchanges names, ‖lineshapes (ordered momenta σ) *
          (if bgSpin0 then 1 else spin (ordered momenta σ))‖ ^ 2) / (exchanges names).card : ℝ) : ℂ) := by
      push_cast
      rw [exchanges_eq]
      congr 1
      apply Finset.sum_congr rfl
      intro σ _
      simp only [Function.comp, ← ordered_eq]
      rw [Complex.normSq_eq_norm_sq]
      push_cast
      rfl
    rw [this]
    exact sqrt_ofReal _ (div_nonneg (Finset.sum_nonneg fun _ _ => sq_nonneg _) (Nat.cast_nonneg _))
  · intro o ho
    have ho' := h2.mem_iff.mp ho
    rw [List.mem_map] at ho'
    obtain ⟨σ, _, rfl⟩ := ho'
    exact minSwaps_some σ names fermion fuel (by omega)

theorem ordered_mul {n : Nat} {P : Type} (momenta : Nat → P) (ρ σ : Equiv.Perm (Fin n))
    (moved : Nat → P) (hm : ∀ i : Fin n, moved i = momenta (ρ i)) :
    ordered moved σ = ordered momenta (ρ * σ) := by
  unfold ordered
  congr 1
  funext i
  rw [hm, Equiv.Perm.mul_apply]

/-- The incoherent amplitude does not change when identical particles are exchanged in any
way. -/
theorem incoherent_exchange {n : Nat} {P : Type} (names : Fin n → String) (fermion : String → Bool)
    (bgSpin0 constant : Bool) :
    ∃ N, ∀ fuel, N ≤ fuel → ∀ (lineshapes spin : List P → ℂ) (momenta moved : Nat → P) (ρ : Equiv.Perm (Fin n)),
      (∀ i, names (ρ i) = names i) → (∀ i : Fin n, moved i = momenta (ρ i)) →
      getExpression fuel (List.ofFn names) fermion ⟨false, true, bgSpin0⟩ constant
          (fun o => lineshapes (o.map moved)) (fun o => spin (o.map moved)) =
        getExpression fuel (List.ofFn names) fermion ⟨false, true, bgSpin0⟩ constant
          (fun o => lineshapes (o.map momenta)) (fun o => spin (o.map momenta)) := by
  obtain ⟨N, hN⟩ := incoherent_amplitude (P := P) names fermion bgSpin0 constant
  refine ⟨N, fun fuel hf lineshapes spin momenta moved ρ hρ hm => ?_⟩
  rw [hN fuel hf, hN fuel hf]
  have hk : ρ ∈ keeping names := by
    simp only [keeping, Finset.mem_filter, Finset.mem_univ, true_and]
    exact hρ
  have : (∑ σ ∈ exchanges names, ‖lineshapes (ordered moved σ) *
          (if bgSpin0 then 1 else spin (ordered moved σ))‖ ^ 2) =
      ∑ σ ∈ exchanges names, ‖lineshapes (ordered momenta σ) *
          (if bgSpin0 then 1 else spin (ordered momenta σ))‖ ^ 2 := by
    rw [exchanges_eq]
    refine Finset.sum_bij (fun σ _ => ρ * σ) (fun σ hσ => keeping_mul hk hσ)
      (fun a _ b _ h => mul_left_cancel h) (fun b hb => ⟨ρ⁻¹ * b, keeping_mul (keeping_inv_mem hk) hb, ?_⟩) ?_
    · rw [← mul_assoc, mul_inv_cancel, one_mul]
    · intro σ _
      rw [ordered_mul momenta ρ σ moved hm]
  rw [this]

example : ∃ ρ : Equiv.Perm (Fin 3), (∀ i, (fun _ => "pi+" : Fin 3 → String) (ρ i) = "pi+") ∧ ρ ≠ 1 :=
  ⟨Equiv.swap 0 1, fun _ => rfl, by decide⟩

/-! ### The coherent sum -/

/-- Without modifiers the amplitude is the sum over the orderings of identical particles,
with the sign of the rearrangement of the fermions, divided by the square root of the number
of orderings.  (Full claim: for any number of identical fermions; see
`Comb.exchange_parity_counterexample`.) -/
theorem coherent_amplitude_partial {n : Nat} {P : Type} (names : Fin n → String) (fermion : String → Bool)
    (hp : FermionPairs names fermion) (bgSpin0 : Bool) :
    ∃ N, ∀ fuel, N ≤ fuel → ∀ (lineshapes spin : List P → ℂ) (momenta : Nat → P),
      getExpression fuel (List.ofFn names) fermion ⟨false, false, bgSpin0⟩ false
          (fun o => lineshapes (o.map momenta)) (fun o => spin (o.map momenta)) =
        some ((∑ σ ∈ exchanges names, (fsign names fermion σ : ℂ) * (lineshapes (ordered momenta σ) *
          (if bgSpin0 then 1 else spin (ordered momenta σ)))) / (Real.sqrt (exchanges names).card : ℂ)) := by
  obtain ⟨N, R, h1, h2⟩ := orderings_perm names
  refine ⟨N + n + 1, fun fuel hf lineshapes spin momenta => ?_⟩
  unfold getExpression
  rw [h1 fuel (by omega)]
  simp only [Option.bind_some]
  have hpar : ((List.ofFn names).map fun s => if fermion s then (-1 : Int) else 1) =
      List.ofFn fun i => if fermion (names i) = true then -1 else 1 := by
    rw [List.map_ofFn]; rfl
  let s : List Nat → Int := fun o =>
    ((minSwaps fuel o (List.ofFn fun i => if fermion (names i) = true then -1 else 1)).map Prod.snd).getD 0
  have hs : ∀ σ ∈ keeping names,
      (minSwaps fuel (toIdx σ) (List.ofFn fun i => if fermion (names i) = true then -1 else 1)).map Prod.snd
        = some (fsign names fermion σ) := by
    intro σ hσ
    have hF := keeping_F hσ fermion
    have := minSwaps_parity σ (fun x => fermion (names x) = true) hF (keeping_inv hp hσ) fuel (by omega)
    unfold toIdx
    rw [this]
    unfold fsign
    rw [dif_pos hF]
  have hs' : ∀ σ ∈ keeping names, s (toIdx σ) = fsign names fermion σ := by
    intro σ hσ
    simp only [s]
    rw [hs σ hσ]
    rfl
  rw [hpar, sum_coherent _ _ _ rfl rfl _ _ R s]
  · simp only [Option.map_some, Bool.false_eq_true, if_false, zero_add]
    congr 1
    have hl : R.length = (exchanges names).card := by
      rw [h2.length_eq, List.length_map, Finset.length_toList, exchanges_eq]
    rw [hl, (h2.map _).sum_eq, List.map_map, Finset.sum_map_toList]
    have hq : ((exchanges names).card : ℂ) ^ (1 / 2 : ℂ) = (Real.sqrt (exchanges names).card : ℂ) := by
      have := sqrt_ofReal ((exchanges names).card : ℝ) (by positivity)
      rw [← this]
      push_cast
      rfl
    rw [hq]
    congr 1
    rw [exchanges_eq]
    apply Finset.sum_congr rfl
    intro σ hσ
    simp only [Function.comp, ← ordered_eq]
    rw [hs' σ hσ]
  · intro o ho
    have ho' := h2.mem_iff.mp ho
    rw [List.mem_map] at ho'
    obtain ⟨σ, hσ, rfl⟩ := ho'
    rw [Finset.mem_toList] at hσ
    rw [hs σ hσ, hs' σ hσ]

example : FermionPairs (n := 4) ![ "p", "p", "pi0", "pi0" ] (fun s => s == "p") := by
  unfold FermionPairs; decide +kernel

/-- Exchanging two identical particles changes the sign of the coherent amplitude if they
are fermions and leaves it as it is if they are bosons. -/
theorem coherent_exchange_partial {n : Nat} {P : Type} (names : Fin n → String) (fermion : String → Bool)
    (hp : FermionPairs names fermion) (bgSpin0 : Bool) (ρ : Equiv.Perm (Fin n)) (hρ : ∀ i, names (ρ i) = names i) :
    ∃ N, ∀ fuel, N ≤ fuel → ∀ (lineshapes spin : List P → ℂ) (momenta moved : Nat → P),
      (∀ i : Fin n, moved i = momenta (ρ i)) → ∃ a b,
      getExpression fuel (List.ofFn names) fermion ⟨false, false, bgSpin0⟩ false
          (fun o => lineshapes (o.map momenta)) (fun o => spin (o.map momenta)) = some a ∧
      getExpression fuel (List.ofFn names) fermion ⟨false, false, bgSpin0⟩ false
          (fun o => lineshapes (o.map moved)) (fun o => spin (o.map moved)) = some b ∧
      b = fsign names fermion ρ * a ∧ ‖b‖ = ‖a‖ := by
  obtain ⟨N, hN⟩ := coherent_amplitude_partial (P := P) names fermion hp bgSpin0
  refine ⟨N, fun fuel hf lineshapes spin momenta moved hm => ⟨_, _, hN fuel hf _ _ _, hN fuel hf _ _ _, ?_⟩⟩
  have hk : ρ ∈ keeping names := by
    simp only [keeping, Finset.mem_filter, Finset.mem_univ, true_and]
    exact hρ
  have hsq : fsign names fermion ρ = 1 ∨ fsign names fermion ρ = -1 := by
    unfold fsign
    rw [dif_pos (keeping_F hk fermion)]
    rcases Int.units_eq_one_or (Equiv.Perm.sign (ρ.subtypePerm (p := fun x => fermion (names x) = true)
      (keeping_F hk fermion))) with h | h <;> rw [h]
    · exact Or.inl rfl
    · exact Or.inr rfl
  have key : (∑ σ ∈ exchanges names, (fsign names fermion σ : ℂ) * (lineshapes (ordered moved σ) *
          (if bgSpin0 then 1 else spin (ordered moved σ)))) =
      fsign names fermion ρ * ∑ σ ∈ exchanges names, (fsign names fermion σ : ℂ) * (lineshapes (ordered momenta σ) *
          (if bgSpin0 then 1 else spin (ordered momenta σ))) := by
    rw [exchanges_eq, Finset.mul_sum]
    refine Finset.sum_bij (fun σ _ => ρ * σ) (fun σ hσ => keeping_mul hk hσ)
      (fun a _ b _ h => mul_left_cancel h) (fun b hb => ⟨ρ⁻¹ * b, keeping_mul (keeping_inv_mem hk) hb, ?_⟩) ?_
    · rw [← mul_assoc, mul_inv_cancel, one_mul]
    · intro σ hσ
      rw [ordered_mul momenta ρ σ moved hm, fsign_mul names fermion hk hσ]
      push_cast
      generalize lineshapes (ordered momenta (ρ * σ)) *
        (if bgSpin0 then 1 else spin (ordered momenta (ρ * σ))) = v
      rcases hsq with h | h <;> rw [h] <;> push_cast <;> ring
  have hb : (∑ σ ∈ exchanges names, (fsign names fermion σ : ℂ) * (lineshapes (ordered moved σ) *
          (if bgSpin0 then 1 else spin (ordered moved σ)))) / (Real.sqrt (exchanges names).card : ℂ) =
      fsign names fermion ρ * ((∑ σ ∈ exchanges names, (fsign names fermion σ : ℂ) * (lineshapes (ordered momenta σ) *
          (if bgSpin0 then 1 else spin (ordered momenta σ)))) / (Real.sqrt (exchanges names).card : ℂ)) := by
    rw [key, mul_div_assoc]
  refine ⟨hb, ?_⟩
  rw [hb, norm_mul]
  rcases hsq with h | h <;> rw [h] <;> simp

example : ∃ ρ : Equiv.Perm (Fin 4), (∀ i, (![ "p", "p", "pi0", "pi0" ] : Fin 4 → String) (ρ i) =
    (![ "p", "p", "pi0", "pi0" ] : Fin 4 → String) i) ∧ ρ ≠ 1 :=
  ⟨Equiv.swap 0 1 * Equiv.swap 2 3, by decide +kernel, by decide +kernel⟩

/-- For two particles of the same name: minus sign for fermions, none for bosons. -/
theorem coherent_swap_partial {n : Nat} {P : Type} (names : Fin n → String) (fermion : String → Bool)
    (hp : FermionPairs names fermion) (bgSpin0 : Bool) (i j : Fin n) (hij : i ≠ j) (hname : names i = names j) :
    ∃ N, ∀ fuel, N ≤ fuel → ∀ (lineshapes spin : List P → ℂ) (momenta moved : Nat → P),
      moved i = momenta j → moved j = momenta i → (∀ k, k ≠ (i : Nat) → k ≠ (j : Nat) → moved k = momenta k) → ∃ a b,
      getExpression fuel (List.ofFn names) fermion ⟨false, false, bgSpin0⟩ false
          (fun o => lineshapes (o.map momenta)) (fun o => spin (o.map momenta)) = some a ∧
      getExpression fuel (List.ofFn names) fermion ⟨false, false, bgSpin0⟩ false
          (fun o => lineshapes (o.map moved)) (fun o => spin (o.map moved)) = some b ∧
      b = if fermion (names i) then -a else a := by
  have hk : ∀ k, names (Equiv.swap i j k) = names k := by
    intro k
    by_cases h1 : k = i
    · subst h1; rw [Equiv.swap_apply_left, hname]
    · by_cases h2 : k = j
      · subst h2; rw [Equiv.swap_apply_right, hname]
      · rw [Equiv.swap_apply_of_ne_of_ne h1 h2]
  obtain ⟨N, hN⟩ := coherent_exchange_partial (P := P) names fermion hp bgSpin0 (Equiv.swap i j) hk
  refine ⟨N, fun fuel hf lineshapes spin momenta moved h1 h2 h3 => ?_⟩
  obtain ⟨a, b, ha, hb, hab, _⟩ := hN fuel hf lineshapes spin momenta moved (by
    intro k
    by_cases e1 : k = i
    · subst e1; rw [Equiv.swap_apply_left, h1]
    · by_cases e2 : k = j
      · subst e2; rw [Equiv.swap_apply_right, h2]
      · rw [Equiv.swap_apply_of_ne_of_ne e1 e2]
        exact h3 k (fun h => e1 (Fin.ext h)) (fun h => e2 (Fin.ext h)))
  refine ⟨a, b, ha, hb, ?_⟩
  rw [hab, fsign_swap names fermion i j hij hname]
  split <;> simp

/-! ### Without symmetrisation -/

/-- With the modifier `NoSym` the amplitude is the one of the final state as it is given;
with `Inco` as well, it is its magnitude. -/
theorem unsymmetrised_amplitude {n : Nat} {P : Type} (names : Fin n → String) (fermion : String → Bool)
    (bgSpin0 : Bool) :
    ∃ N, ∀ fuel, N ≤ fuel → ∀ (lineshapes spin : List P → ℂ) (momenta : Nat → P) (constant : Bool),
      getExpression fuel (List.ofFn names) fermion ⟨true, false, bgSpin0⟩ false
          (fun o => lineshapes (o.map momenta)) (fun o => spin (o.map momenta)) =
        some (lineshapes (ordered momenta (1 : Equiv.Perm (Fin n))) *
          (if bgSpin0 then 1 else spin (ordered momenta (1 : Equiv.Perm (Fin n))))) ∧
      getExpression fuel (List.ofFn names) fermion ⟨true, true, bgSpin0⟩ constant
          (fun o => lineshapes (o.map momenta)) (fun o => spin (o.map momenta)) =
        some (‖lineshapes (ordered momenta (1 : Equiv.Perm (Fin n))) *
          (if bgSpin0 then 1 else spin (ordered momenta (1 : Equiv.Perm (Fin n))))‖ : ℂ) := by
  obtain ⟨N, R, h1, _⟩ := orderings_perm names
  refine ⟨N + n + 1, fun fuel hf lineshapes spin momenta constant => ?_⟩
  obtain ⟨rest, rfl⟩ := orderings_head names fuel R (h1 fuel (by omega))
  have hm := minSwaps_one names fermion fuel (by omega)
  unfold getExpression
  rw [h1 fuel (by omega)]
  simp only [Option.bind_some]
  unfold sumOrderings
  rw [hm]
  simp only [Option.bind_some, Option.map_some, if_true, Bool.false_eq_true, if_false, zero_add, ← ordered_eq]
  constructor
  · simp
  · congr 1
    rw [div_one]
    unfold sumOrderings.conj
    rw [← Complex.normSq_eq_conj_mul_self, sqrt_ofReal _ (Complex.normSq_nonneg _), Complex.normSq_eq_norm_sq,
      Real.sqrt_sq (norm_nonneg _)]

/-! ### What is not true -/

/-- An amplitude that vanishes identically (its sum has simplified to the constant zero) does
not give a vanishing density. -/
theorem vanishing_amplitude_counterexample :
    ∃ a, getExpression 10 ["K-", "pi+"] (fun _ => false) ⟨false, false, false⟩ true (fun _ => 1) (fun _ => 0) = some a ∧
      ‖a‖ ^ 2 = 1 / 10 ^ 10 := by
  have h1 : identicalDaughterOrderings 10 ["K-", "pi+"] = some [[0, 1]] := by decide +kernel
  have h2 : minSwaps 10 [0, 1] [1, 1] = some (0, 1) := by decide +kernel
  refine ⟨I * (1 / 100000), ?_, ?_⟩
  · unfold getExpression
    rw [h1]
    simp only [Option.bind_some]
    unfold sumOrderings
    simp only [List.map_cons, List.map_nil, Bool.false_eq_true, if_false]
    rw [h2]
    simp [sumOrderings]
  · rw [norm_mul, Complex.norm_I]
    norm_num

end AmpGen.Amplitude
