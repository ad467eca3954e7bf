import Verif.Tensor.LemmasD
import Mathlib.LinearAlgebra.Vandermonde
import Mathlib.LinearAlgebra.Matrix.Determinant.Basic
/-
The Levi-Civita tensor.
-/
namespace AmpGen.Tensor

theorem foldl_mul {α : Type} (f : α → Int) : ∀ (l : List α) (c : Int), l.foldl (fun p i => p * f i) c = c * (l.map f).prod := by
  intro l
  induction l with
  | nil => intro c; simp
  | cons x l ih => intro c; rw [List.foldl_cons, ih, List.map_cons, List.prod_cons, mul_assoc]

theorem prod_range_list (f : Nat → Int) (n : Nat) : ((List.range n).map f).prod = ∏ i ∈ Finset.range n, f i := by
  induction n with
  | zero => rfl
  | succ n ih => rw [List.range_succ, List.map_append, List.prod_append, ih, Finset.prod_range_succ]; simp

theorem prod_range'_list (f : Nat → Int) (a k : Nat) : ((List.range' a k).map f).prod = ∏ i ∈ Finset.Ico a (a + k), f i := by
  rw [Finset.prod_Ico_eq_prod_range, Nat.add_sub_cancel_left, ← prod_range_list, List.range'_eq_map_range, List.map_map]
  rfl

theorem permutationSign_eq {n : Nat} (v : Fin n → Nat) :
    permutationSign (List.ofFn v) = (Matrix.vandermonde fun i => -(v i : Int)).det := by
  rw [Matrix.det_vandermonde]
  unfold permutationSign
  rw [List.length_ofFn]
  have hget : ∀ i : Nat, ∀ h : i < n, (List.ofFn v).getD i 0 = v ⟨i, h⟩ := by
    intro i h
    rw [List.getD_eq_getElem _ _ (by rw [List.length_ofFn]; exact h), List.getElem_ofFn]
  set g : Nat → Nat → Int := fun i j => ((List.ofFn v).getD i 0 : Int) - ((List.ofFn v).getD j 0 : Int) with hg
  have h1 : (List.range (n - 1)).foldl (fun prod i =>
      (List.range' (i + 1) (n - (i + 1))).foldl (fun prod j => prod * (((List.ofFn v).getD i 0 : Int) - ((List.ofFn v).getD j 0 : Int))) prod) (1 : Int)
      = ∏ i ∈ Finset.range (n - 1), ∏ j ∈ Finset.Ico (i + 1) n, g i j := by
    have e : (fun (prod : Int) (i : Nat) =>
      (List.range' (i + 1) (n - (i + 1))).foldl (fun prod j => prod * (((List.ofFn v).getD i 0 : Int) - ((List.ofFn v).getD j 0 : Int))) prod) =
      fun prod i => prod * ((List.range' (i + 1) (n - (i + 1))).map (g i)).prod := by
      funext prod i
      exact foldl_mul (g i) _ prod
    rw [e, foldl_mul, one_mul, prod_range_list]
    apply Finset.prod_congr rfl
    intro i hi
    rw [prod_range'_list, Nat.add_sub_cancel' (by have := Finset.mem_range.mp hi; omega)]
  rw [h1]
  have h2 : ∏ i ∈ Finset.range (n - 1), ∏ j ∈ Finset.Ico (i + 1) n, g i j = ∏ i ∈ Finset.range n, ∏ j ∈ Finset.Ico (i + 1) n, g i j := by
    cases n with
    | zero => rfl
    | succ n => rw [Nat.add_sub_cancel, Finset.prod_range_succ, Finset.Ico_self, Finset.prod_empty, mul_one]
  rw [h2, ← Fin.prod_univ_eq_prod_range (fun i => ∏ j ∈ Finset.Ico (i + 1) n, g i j) n]
  apply Finset.prod_congr rfl
  intro i _
  have h3 : Finset.Ico (i.val + 1) n = (Finset.Ioi i).map Fin.valEmbedding := by
    rw [Fin.map_valEmbedding_Ioi]; rfl
  rw [h3, Finset.prod_map]
  apply Finset.prod_congr rfl
  intro j _
  simp only [hg, Fin.valEmbedding_apply]
  rw [hget i.val i.isLt, hget j.val j.isLt]
  simp only [Fin.eta]
  ring

theorem permutationSign_perm {n : Nat} (σ : Equiv.Perm (Fin n)) :
    permutationSign (List.ofFn fun i => (σ i).val) = (Equiv.Perm.sign σ : Int) * permutationSign (List.range n) := by
  have h0 : List.range n = List.ofFn fun i : Fin n => i.val := by
    apply List.ext_getElem <;> simp
  rw [h0, permutationSign_eq, permutationSign_eq]
  have : (Matrix.vandermonde fun i => -((σ i).val : Int)) = (Matrix.vandermonde fun i : Fin n => -(i.val : Int)).submatrix σ id := by
    ext i j; simp [Matrix.vandermonde_apply]
  rw [this, Matrix.det_permute]
  rfl

theorem permutationSign_range_ne (n : Nat) : permutationSign (List.range n) ≠ 0 := by
  have h0 : List.range n = List.ofFn fun i : Fin n => i.val := by
    apply List.ext_getElem <;> simp
  rw [h0, permutationSign_eq, Matrix.det_vandermonde_ne_zero_iff]
  intro a b h
  simp only [neg_inj, Nat.cast_inj] at h
  exact Fin.ext h

theorem levi_fold {K : Type} [CommRing K] (n : Nat) (F : List Nat → K) : ∀ (perms : List (List Nat)),
    (∀ p ∈ perms, Valid p (List.replicate n n)) → ∀ (t : Tensor K), t.dim = List.replicate n n → t.sym = List.range (List.replicate n n).prod →
    t.elements.length = (List.replicate n n).prod →
    let r := perms.foldl (fun t p => t.setIndex (t.sym.getD (coordinatesToIndex p t.dim) 0) (F p)) t
    r.dim = t.dim ∧ r.sym = t.sym ∧ r.elements.length = t.elements.length ∧
      (∀ p, p ∈ perms → r.elements[coordinatesToIndex p t.dim]? = some (F p)) ∧
      ∀ e, (∀ p ∈ perms, coordinatesToIndex p t.dim ≠ e) → r.elements[e]? = t.elements[e]? := by
  intro perms
  induction perms with
  | nil => intro _ t _ _ _; exact ⟨rfl, rfl, rfl, by simp, fun _ _ => rfl⟩
  | cons p perms ih =>
    intro hv t hd hs hl
    have hp := toIndex_lt (hv p (by simp))
    rw [← hd] at hp
    have hsd : ∀ d, t.sym.getD (coordinatesToIndex p t.dim) d = coordinatesToIndex p t.dim := by
      intro d
      rw [hs, ← hd, List.getD_eq_getElem _ _ (by rw [List.length_range]; exact hp), List.getElem_range]
    have hset : t.setIndex (t.sym.getD (coordinatesToIndex p t.dim) 0) (F p) =
        { t with elements := t.elements.set (coordinatesToIndex p t.dim) (F p) } := by
      unfold Tensor.setIndex
      rw [hsd 0, hsd]
    rw [List.foldl_cons, hset]
    obtain ⟨r1, r2, r3, r4, r5⟩ := ih (fun q hq => hv q (List.mem_cons_of_mem _ hq)) { t with elements := t.elements.set (coordinatesToIndex p t.dim) (F p) }
      hd hs (by simpa using hl)
    refine ⟨r1, r2, by simpa using r3, ?_, ?_⟩
    · intro q hq
      by_cases hqm : q ∈ perms
      · exact r4 q hqm
      · have hqp : q = p := by simpa [hqm] using hq
        subst hqp
        rw [r5 _ ?_]
        · simp only
          rw [List.getElem?_set_self (by rw [hl, ← hd]; exact hp)]
        · intro p' hp' he
          apply hqm
          have h1 := toCoords_toIndex (hv p' (List.mem_cons_of_mem _ hp'))
          have h2 := toCoords_toIndex (hv q (by simp))
          simp only at he
          rw [hd] at he
          rw [← h2, ← he, h1]; exact hp'
    · intro e he
      rw [r5 e fun q hq => he q (List.mem_cons_of_mem _ hq)]
      simp only
      rw [List.getElem?_set_ne (he p (by simp))]

theorem perm_range_valid {n : Nat} {p : List Nat} (h : p.Perm (List.range n)) : Valid p (List.replicate n n) := by
  have hl : p.length = n := by rw [h.length_eq, List.length_range]
  refine List.forall₂_iff_get.mpr ⟨by rw [hl, List.length_replicate], ?_⟩
  intro i h1 h2
  rw [List.get_eq_getElem, List.get_eq_getElem, List.getElem_replicate]
  exact List.mem_range.mp (h.mem_iff.mp (List.getElem_mem h1))

theorem levi_spec {K : Type} [CommRing K] (poison : K) {n : Nat} (hn : 0 < n) {perms : List (List Nat)}
    (hp : ∀ p, p ∈ perms ↔ p.Perm (List.range n)) :
    (∀ σ : Equiv.Perm (Fin n), (leviCivita (K := K) n perms).at poison (List.ofFn fun i => (σ i).val) = ((Equiv.Perm.sign σ : Int) : K)) ∧
    ∀ co, Valid co (List.replicate n n) → ¬ co.Nodup → (leviCivita (K := K) n perms).at poison co = 0 := by
  have hd : ∀ d ∈ List.replicate n n, 0 < d := by
    intro d h; rw [(List.mem_replicate.mp h).2]; exact hn
  have z1 : (Tensor.zero (K := K) (List.replicate n n)).sym = List.range (List.replicate n n).prod := by
    show List.range (nCoordinates _) = _; unfold nCoordinates; rw [foldl_prod]
  have z2 : (Tensor.zero (K := K) (List.replicate n n)).elements.length = (List.replicate n n).prod := by
    show (List.replicate _ _).length = _; rw [List.length_replicate, nElements_eq hd]
  obtain ⟨r1, r2, r3, r4, r5⟩ := levi_fold n (fun p => ((permutationSign p / permutationSign (List.range n) : Int) : K)) perms
    (fun p h => perm_range_valid ((hp p).mp h)) (Tensor.zero (List.replicate n n)) rfl z1 z2
  have hread : ∀ co, Valid co (List.replicate n n) → (leviCivita (K := K) n perms).at poison co =
      ((leviCivita (K := K) n perms).elements[coordinatesToIndex co (List.replicate n n)]?).getD poison := by
    intro co hco
    have hlt := toIndex_lt hco
    unfold Tensor.at Tensor.atIndex
    have e1 : (leviCivita (K := K) n perms).dim = List.replicate n n := r1
    have e2 : (leviCivita (K := K) n perms).sym = List.range (List.replicate n n).prod := r2.trans z1
    rw [e1, e2]
    have e3 : ∀ d, (List.range (List.replicate n n).prod).getD (coordinatesToIndex co (List.replicate n n)) d =
        coordinatesToIndex co (List.replicate n n) := by
      intro d
      rw [List.getD_eq_getElem _ _ (by rw [List.length_range]; exact hlt), List.getElem_range]
    rw [e3, List.getD_eq_getElem?_getD]
  constructor
  · intro σ
    have hperm : (List.ofFn fun i => (σ i).val).Perm (List.range n) := by
      have h0 : List.range n = List.ofFn fun i : Fin n => i.val := by apply List.ext_getElem <;> simp
      rw [h0]
      exact (Equiv.Perm.ofFn_comp_perm σ (fun i : Fin n => i.val))
    rw [hread _ (perm_range_valid hperm)]
    have := r4 _ ((hp _).mpr hperm)
    refine (congrArg (fun o => Option.getD o poison) this).trans ?_
    simp only [Option.getD_some]
    rw [permutationSign_perm, Int.mul_ediv_cancel _ (permutationSign_range_ne n)]
  · intro co hco hnd
    rw [hread _ hco]
    have hlt := toIndex_lt hco
    have := r5 (coordinatesToIndex co (List.replicate n n)) (by
      intro p hpm he
      have h1 := toCoords_toIndex (perm_range_valid ((hp p).mp hpm))
      have h2 := toCoords_toIndex hco
      have he' : coordinatesToIndex p (List.replicate n n) = coordinatesToIndex co (List.replicate n n) := he
      apply hnd
      rw [← h2, ← he', h1]
      exact ((hp p).mp hpm).nodup_iff.mpr List.nodup_range)
    refine (congrArg (fun o => Option.getD o poison) this).trans ?_
    show ((List.replicate (nElements (List.replicate n n)) (0 : K))[coordinatesToIndex co (List.replicate n n)]?).getD poison = 0
    rw [nElements_eq hd, List.getElem?_replicate, if_pos hlt]; rfl

end AmpGen.Tensor
