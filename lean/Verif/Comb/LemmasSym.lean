import Verif.Comb.LemmasCycle
import Verif.Comb.LemmasComb
import Mathlib.Algebra.BigOperators.Group.Finset.Basic
import Mathlib.Algebra.Group.Int.Units
/-
Exchange parities and the symmetrised amplitude.
-/
namespace AmpGen.Comb

open Equiv.Perm

variable {n : Nat}

theorem app_inv (σ : Equiv.Perm (Fin n)) (x : Fin n) : σ (σ⁻¹ x) = x := by
  rw [← Equiv.Perm.mul_apply, mul_inv_cancel]
  rfl

/-- In a cycle of a permutation preserving `F`, all or no elements satisfy `F`. -/
theorem cycle_uniform (τ : Equiv.Perm (Fin n)) (F : Fin n → Prop) (hF : ∀ x, F (τ x) ↔ F x)
    {x y : Fin n} (h : SameCycle τ x y) : F x ↔ F y := by
  obtain ⟨k, rfl⟩ := h
  have hz : ∀ k : ℤ, ∀ x, F ((τ ^ k) x) ↔ F x := by
    intro k
    induction k with
    | zero => intro x; simp
    | succ k ih =>
      intro x
      rw [zpow_add, Equiv.Perm.mul_apply, ih, zpow_one, hF]
    | pred k ih =>
      intro x
      rw [zpow_sub, Equiv.Perm.mul_apply, ih, zpow_one]
      have := hF (τ⁻¹ x)
      rw [app_inv] at this
      exact this.symm
  exact (hz k x).symm

theorem parity_prod (τ : Equiv.Perm (Fin n)) (F : Fin n → Prop) [DecidablePred F]
    (hF : ∀ x, F (τ x) ↔ F x) (hinv : ∀ x, F x → τ (τ x) = x) :
    ∏ c ∈ τ.cycleFactorsFinset, leastPar (fun i => if F i then -1 else 1) c =
      ((sign (τ.subtypePerm hF) : ℤˣ) : ℤ) := by
  rw [← sign_ofSubtype, sign_cycles, cycles_restrict]
  have hcyc : ∀ c ∈ τ.cycleFactorsFinset, leastPar (fun i => if F i then (-1 : Int) else 1) c =
      if ∀ x ∈ c.support, F x then -1 else 1 := by
    intro c hc
    obtain ⟨x, hx⟩ := IsCycle.nonempty_support (mem_cycleFactorsFinset_iff.mp hc).1
    unfold leastPar
    have hne : c.support.Nonempty := ⟨x, hx⟩
    rw [dif_pos hne]
    show (if F (c.support.min' hne) then (-1 : Int) else 1) = _
    have hm := Finset.min'_mem c.support hne
    have huni : ∀ y ∈ c.support, (F (c.support.min' hne) ↔ F y) := by
      intro y hy
      apply cycle_uniform τ F hF
      have h1 := (eq_cycleOf_of_mem_cycleFactorsFinset_iff τ c hc _).mpr hm
      rw [h1] at hy
      by_contra hns
      rw [mem_support, cycleOf_apply_of_not_sameCycle hns] at hy
      exact hy rfl
    by_cases hall : ∀ x ∈ c.support, F x
    · rw [if_pos hall, if_pos (hall _ hm)]
    · rw [if_neg hall, if_neg]
      intro hmin
      exact hall fun y hy => (huni y hy).mp hmin
  rw [Finset.prod_congr rfl hcyc, ← Finset.prod_filter]
  have hcard : ∀ c ∈ τ.cycleFactorsFinset.filter (fun c => ∀ x ∈ c.support, F x), c.support.card = 2 := by
    intro c hc
    rw [← cycles_restrict τ F hF] at hc
    refine card_two _ ?_ c hc
    intro x
    by_cases hx : F x
    · rw [ofSubtype_apply_of_mem _ hx]
      have : F (((τ.subtypePerm hF) ⟨x, hx⟩ : {x // F x}) : Fin n) := Subtype.property _
      rw [ofSubtype_apply_of_mem _ this]
      exact hinv x hx
    · rw [ofSubtype_apply_of_not_mem _ hx, ofSubtype_apply_of_not_mem _ hx]
  rw [Finset.prod_congr rfl (g := fun _ => (-1 : ℤˣ)) (fun c hc => by rw [hcard c hc]; rfl)]
  simp

/-- Parity of an ordering that exchanges fermions in pairs only. -/
theorem minSwaps_parity (σ : Equiv.Perm (Fin n)) (F : Fin n → Prop) [DecidablePred F]
    (hF : ∀ x, F (σ x) ↔ F x) (hinv : ∀ x, F x → σ (σ x) = x) (fuel : Nat) (hf : n < fuel) :
    (minSwaps fuel (List.ofFn fun i => ((σ i : Fin n) : Nat))
      (List.ofFn fun i => if F i then -1 else 1)).map Prod.snd =
      some ((sign (σ.subtypePerm hF) : ℤˣ) : ℤ) := by
  rw [minSwaps_eq σ _ fuel hf, Option.map_some]
  have hF' : ∀ x, F (σ⁻¹ x) ↔ F x := by
    intro x
    have := hF (σ⁻¹ x)
    rw [app_inv] at this
    exact this.symm
  have hback : ∀ x, F x → σ⁻¹ x = σ x := by
    intro x hx
    rw [Equiv.Perm.inv_eq_iff_eq, hinv x hx]
  have hinv' : ∀ x, F x → σ⁻¹ (σ⁻¹ x) = x := by
    intro x hx
    rw [hback x hx, hback _ ((hF x).mpr hx), hinv x hx]
  rw [parity_prod σ⁻¹ F hF' hinv']
  have heq : σ⁻¹.subtypePerm hF' = σ.subtypePerm hF := by
    ext x
    simp only [subtypePerm_apply]
    rw [hback x x.2]
  rw [heq]

/-! ### Lists of indices as permutations -/

/-- The permutation as a list of indices. -/
def toIdx (σ : Equiv.Perm (Fin n)) : List Nat := List.ofFn fun i => ((σ i : Fin n) : Nat)

theorem toIdx_injective : Function.Injective (toIdx (n := n)) := by
  intro σ τ h
  ext i
  have := List.ofFn_inj.mp h
  exact congrFun this i

theorem perm_range_iff (p : List Nat) : p.Perm (List.range n) ↔ ∃ σ : Equiv.Perm (Fin n), p = toIdx σ := by
  constructor
  · intro h
    have hlen : p.length = n := by rw [h.length_eq, List.length_range]
    have hlt : ∀ i : Fin n, p[(i : Nat)]'(by rw [hlen]; exact i.2) < n := by
      intro i
      have : p[(i : Nat)]'(by rw [hlen]; exact i.2) ∈ p := List.getElem_mem _
      exact List.mem_range.mp (h.mem_iff.mp this)
    let f : Fin n → Fin n := fun i => ⟨p[(i : Nat)]'(by rw [hlen]; exact i.2), hlt i⟩
    have hinj : Function.Injective f := by
      intro i j hij
      have h1 : p[(i : Nat)]'(by rw [hlen]; exact i.2) = p[(j : Nat)]'(by rw [hlen]; exact j.2) :=
        congrArg Fin.val hij
      have hnd : p.Nodup := h.nodup_iff.mpr List.nodup_range
      exact Fin.ext ((List.Nodup.getElem_inj_iff hnd).mp h1)
    refine ⟨Equiv.ofBijective f (Finite.injective_iff_bijective.mp hinj), ?_⟩
    unfold toIdx
    apply List.ext_getElem
    · simp [hlen]
    · intro i h1 h2
      simp [f]
  · rintro ⟨σ, rfl⟩
    unfold toIdx
    rw [List.perm_ext_iff_of_nodup]
    · intro a
      rw [List.mem_range, List.mem_ofFn']
      constructor
      · rintro ⟨i, rfl⟩; exact (σ i).2
      · intro ha; exact ⟨σ⁻¹ ⟨a, ha⟩, by simp⟩
    · rw [List.nodup_ofFn]
      intro i j hij
      exact σ.injective (Fin.ext hij)
    · exact List.nodup_range

/-- The orderings that keep every name in place. -/
noncomputable def keeping (names : Fin n → String) : Finset (Equiv.Perm (Fin n)) :=
  Finset.univ.filter fun σ => ∀ i, names (σ i) = names i

theorem orderings_perm (names : Fin n → String) :
    ∃ N R, (∀ fuel, N ≤ fuel → identicalDaughterOrderings fuel (List.ofFn names) = some R) ∧
      R.Perm ((keeping names).toList.map toIdx) := by
  obtain ⟨N, R, h1, h2, h3⟩ := orderings_correct (List.ofFn names)
  refine ⟨N, R, h1, ?_⟩
  rw [List.perm_ext_iff_of_nodup]
  · intro p
    rw [h3, List.mem_map]
    simp only [List.length_ofFn, perm_range_iff, Finset.mem_toList, keeping, Finset.mem_filter,
      Finset.mem_univ, true_and]
    constructor
    · rintro ⟨⟨σ, rfl⟩, h4⟩
      refine ⟨σ, ?_, rfl⟩
      intro i
      have := h4 i i.2
      simp [toIdx] at this
      exact this.symm
    · rintro ⟨σ, h4, rfl⟩
      refine ⟨⟨σ, rfl⟩, ?_⟩
      intro i hi
      simp [toIdx, hi]
      exact (h4 ⟨i, hi⟩).symm
  · exact h2.imp fun h => ne_of_lt h
  · exact (Finset.nodup_toList _).map toIdx_injective

theorem foldlM_sum {A : Type} [AddCommGroup A] (l : List (List Nat)) (step : List Nat → Option (Nat × Int))
    (amp : List Nat → A) (s : List Nat → Int) (h : ∀ o ∈ l, (step o).map Prod.snd = some (s o)) (z : A) :
    l.foldlM (fun total o => (step o).map fun ep => total + ep.2 • amp o) z =
      some (z + (l.map fun o => s o • amp o).sum) := by
  induction l generalizing z with
  | nil => simp
  | cons o l ih =>
    have ho := h o (by simp)
    cases hs : step o with
    | none => rw [hs] at ho; cases ho
    | some ep =>
      rw [hs] at ho
      simp only [Option.map_some, Option.some.injEq] at ho
      rw [List.foldlM_cons, hs]
      simp only [Option.map_some]
      show List.foldlM _ (z + ep.2 • amp o) l = _
      rw [ih (fun o' ho' => h o' (by simp [ho'])), ho]
      simp [add_assoc]

theorem keeping_inv {names : Fin n → String} {fermion : String → Bool}
    (hp : FermionPairs names fermion) {σ : Equiv.Perm (Fin n)} (hσ : σ ∈ keeping names) (x : Fin n)
    (hx : fermion (names x) = true) : σ (σ x) = x := by
  have hk : ∀ i, names (σ i) = names i := by
    simpa [keeping] using hσ
  rcases hp x (σ x) (σ (σ x)) hx (hk x) (by rw [hk, hk]) with h | h | h
  · rw [← h, ← h]
  · have := σ.injective h
    rw [← this, ← this]
  · exact h.symm

theorem keeping_F {names : Fin n → String} {σ : Equiv.Perm (Fin n)} (hσ : σ ∈ keeping names)
    (fermion : String → Bool) (x : Fin n) :
    fermion (names (σ x)) = true ↔ fermion (names x) = true := by
  have hk : ∀ i, names (σ i) = names i := by
    simpa [keeping] using hσ
  rw [hk]

/-- Sign of the permutation on the fermions; `0` if it mixes fermions and bosons. -/
noncomputable def fsign (names : Fin n → String) (fermion : String → Bool) (σ : Equiv.Perm (Fin n)) : Int :=
  open Classical in
  if h : ∀ x, fermion (names (σ x)) = true ↔ fermion (names x) = true then
    ((sign (σ.subtypePerm (p := fun x => fermion (names x) = true) h) : ℤˣ) : ℤ)
  else 0

theorem fsign_mul (names : Fin n → String) (fermion : String → Bool) {σ τ : Equiv.Perm (Fin n)}
    (hσ : σ ∈ keeping names) (hτ : τ ∈ keeping names) :
    fsign names fermion (σ * τ) = fsign names fermion σ * fsign names fermion τ := by
  have h1 := keeping_F hσ fermion
  have h2 := keeping_F hτ fermion
  have h3 : ∀ x, fermion (names ((σ * τ) x)) = true ↔ fermion (names x) = true := by
    intro x; rw [Equiv.Perm.mul_apply, h1, h2]
  unfold fsign
  rw [dif_pos h1, dif_pos h2, dif_pos h3, ← Units.val_mul, ← sign_mul]
  rfl

theorem keeping_mul {names : Fin n → String} {σ τ : Equiv.Perm (Fin n)}
    (hσ : σ ∈ keeping names) (hτ : τ ∈ keeping names) : σ * τ ∈ keeping names := by
  simp only [keeping, Finset.mem_filter, Finset.mem_univ, true_and] at *
  intro i
  rw [Equiv.Perm.mul_apply, hσ, hτ]

theorem keeping_inv_mem {names : Fin n → String} {σ : Equiv.Perm (Fin n)}
    (hσ : σ ∈ keeping names) : σ⁻¹ ∈ keeping names := by
  simp only [keeping, Finset.mem_filter, Finset.mem_univ, true_and] at *
  intro i
  have := hσ (σ⁻¹ i)
  rw [app_inv] at this
  exact this.symm

theorem symmetrised_eq {A : Type} [AddCommGroup A] (names : Fin n → String) (fermion : String → Bool)
    (hp : FermionPairs names fermion) :
    ∃ N, ∀ fuel, N ≤ fuel → ∀ amp : List Nat → A,
      symmetrised fuel (List.ofFn names) fermion amp =
        some (∑ σ ∈ keeping names, fsign names fermion σ • amp (toIdx σ)) := by
  obtain ⟨N, R, h1, h2⟩ := orderings_perm names
  refine ⟨N + n + 1, fun fuel hf amp => ?_⟩
  unfold symmetrised
  rw [h1 fuel (by omega)]
  simp only [Option.bind_some]
  let s : List Nat → Int := fun o =>
    ((minSwaps fuel o (List.ofFn fun i => if fermion (names i) = true then -1 else 1)).map Prod.snd).getD 0
  have hpar : ((List.ofFn names).map fun s => if fermion s then (-1 : Int) else 1) =
      List.ofFn fun i => if fermion (names i) = true then -1 else 1 := by
    rw [List.map_ofFn]; rfl
  have hs : ∀ σ ∈ keeping names,
      (minSwaps fuel (toIdx σ) (List.ofFn fun i => if fermion (names i) = true then -1 else 1)).map Prod.snd
        = some (fsign names fermion σ) := by
    intro σ hσ
    have hF := keeping_F hσ fermion
    have := minSwaps_parity σ (fun x => fermion (names x) = true) hF (keeping_inv hp hσ) fuel (by omega)
    unfold toIdx
    rw [this]
    unfold fsign
    rw [dif_pos hF]
  have hs' : ∀ σ ∈ keeping names, s (toIdx σ) = fsign names fermion σ := by
    intro σ hσ
    simp only [s]
    rw [hs σ hσ]
    rfl
  have := foldlM_sum R
    (fun o => minSwaps fuel o (List.ofFn fun i => if fermion (names i) = true then (-1 : Int) else 1)) amp s
    (by
      intro o ho
      have ho' := h2.mem_iff.mp ho
      rw [List.mem_map] at ho'
      obtain ⟨σ, hσ, rfl⟩ := ho'
      rw [Finset.mem_toList] at hσ
      rw [hs σ hσ, hs' σ hσ]) 0
  rw [hpar, this, zero_add, (h2.map _).sum_eq, List.map_map, Finset.sum_map_toList]
  congr 1
  apply Finset.sum_congr rfl
  intro σ hσ
  simp only [Function.comp]
  rw [hs' σ hσ]

end AmpGen.Comb
