import Verif.Tensor.LemmasE
import Verif.Tensor.LemmasF
/-
C27, C28 and C54 to C56: tensors.
-/
namespace AmpGen.Tensor

/-! ### C27 -/

/-- For every shape, converting a flat position to coordinates and back is the identity, and so is converting coordinates to a
position and back; positions in range correspond to coordinates in range, distinct ones to distinct ones. -/
theorem tensor_index_bijection (dim : List Nat) :
    (∀ i, i < dim.prod → Valid (indexToCoordinates i dim) dim ∧ coordinatesToIndex (indexToCoordinates i dim) dim = i) ∧
    (∀ co, Valid co dim → coordinatesToIndex co dim < dim.prod ∧ indexToCoordinates (coordinatesToIndex co dim) dim = co) ∧
    (∀ co co', Valid co dim → Valid co' dim → coordinatesToIndex co dim = coordinatesToIndex co' dim → co = co') :=
  ⟨fun _ h => ⟨toCoords_valid h, toIndex_toCoords h⟩, fun _ h => ⟨toIndex_lt h, toCoords_toIndex h⟩,
    fun co co' h h' e => by rw [← toCoords_toIndex h, e, toCoords_toIndex h']⟩

/-- Distinct coordinates of a tensor made without imposed symmetries are distinct elements: writing one changes that one only. -/
theorem tensor_write_read {K : Type} [CommRing K] (poison : K) {dim : List Nat} {elements : List K} (hl : elements.length = dim.prod)
    {co co' : List Nat} (h : Valid co dim) (h' : Valid co' dim) (x : K) :
    ((Tensor.ofList elements dim).set co x).at poison co' = if co' = co then x else (Tensor.ofList elements dim).at poison co' := by
  have e1 : (Tensor.ofList elements dim).sym = List.range dim.prod := by
    show List.range (nCoordinates dim) = _; unfold nCoordinates; rw [foldl_prod]
  have e2 : ∀ {c}, Valid c dim → ∀ d, (Tensor.ofList elements dim).sym.getD (coordinatesToIndex c dim) d = coordinatesToIndex c dim := by
    intro c hc d
    rw [e1, List.getD_eq_getElem _ _ (by rw [List.length_range]; exact toIndex_lt hc), List.getElem_range]
  unfold Tensor.set Tensor.setIndex Tensor.at Tensor.atIndex
  simp only
  have hdim : (Tensor.ofList elements dim).dim = dim := rfl
  have hel : (Tensor.ofList elements dim).elements = elements := rfl
  rw [hdim, e2 h, e2 h', e2 h', hel]
  split
  · rename_i he
    subst he
    rw [List.getD_eq_getElem?_getD, List.getElem?_set_self (by rw [hl]; exact toIndex_lt h)]; rfl
  · rename_i he
    rw [List.getD_eq_getElem?_getD, List.getElem?_set_ne, ← List.getD_eq_getElem?_getD]
    intro heq
    exact he (by rw [← toCoords_toIndex h', ← heq, toCoords_toIndex h])

/-- A three by four tensor: the hypotheses hold. -/
example : Valid [2, 3] [3, 4] ∧ (List.range 12).length = ([3, 4] : List Nat).prod ∧ 11 < ([3, 4] : List Nat).prod :=
  ⟨List.Forall₂.cons (by decide) (List.Forall₂.cons (by decide) List.Forall₂.nil), by decide, by decide⟩

/-! ### C28 -/

/-- The product of two tensors carrying at least one index each: the result carries the indices that occur once, first those of the
left factor and then those of the right one, in their order, and each of its elements is the sum over all values of the
repeated indices of the products of the elements addressed, with the metric where an index occurs once up and once down.
The factors may have imposed symmetries.  Partial: a factor without indices is left out, see below. -/
theorem einstein_contraction_partial {K : Type} [CommRing K] (poison : K) (a b : Tensor K) {i1 i2 : List Index} (h1 : (names i1).Nodup)
    (h2 : (names i2).Nodup) (D : Nat → Nat) (n1 : i1 ≠ []) (n2 : i2 ≠ []) (d1 : a.dim = (names i1).map D) (d2 : b.dim = (names i2).map D)
    (hpos : ∀ x ∈ names i1 ++ names i2, 0 < D x) :
    ∃ r, contract poison ⟨a, i1⟩ ⟨b, i2⟩ = some r ∧
      r.indices = (i1.filter fun x => x.name ∉ names i2) ++ (i2.filter fun x => x.name ∉ names i1) ∧
      r.tensor.dim = (names r.indices).map D ∧
      ∀ f : Nat → Nat, (∀ x ∈ names r.indices, f x < D x) →
        r.tensor.at poison ((names r.indices).map f) =
          sumOver (((names i2).filter (· ∈ names i1)).map fun x => (x, D x)) f (fun g =>
            ((((names i2).filter (· ∈ names i1)).map fun x => metric x i1 i2 (g x)).prod : Int) *
              a.at poison ((names i1).map g) * b.at poison ((names i2).map g)) :=
  contract_spec poison a b h1 h2 D n1 n2 d1 d2 hpos

/-- A matrix with indices 0 and 1 (up) and a vector with index 1 (down), in four dimensions: the hypotheses hold, and the
statement says what one expects. -/
example (M v : List ℤ) : ∃ r, contract 0 ⟨Tensor.ofList M [4, 4], [⟨0, true⟩, ⟨1, true⟩]⟩ ⟨Tensor.ofList v [4], [⟨1, false⟩]⟩ = some r ∧
    r.indices = [⟨0, true⟩] ∧ ∀ k < 4, r.tensor.at 0 [k] =
      -((Tensor.ofList M [4, 4]).at 0 [k, 0] * (Tensor.ofList v [4]).at 0 [0])
      - ((Tensor.ofList M [4, 4]).at 0 [k, 1] * (Tensor.ofList v [4]).at 0 [1])
      - ((Tensor.ofList M [4, 4]).at 0 [k, 2] * (Tensor.ofList v [4]).at 0 [2])
      + ((Tensor.ofList M [4, 4]).at 0 [k, 3] * (Tensor.ofList v [4]).at 0 [3]) := by
  obtain ⟨r, hr, hi, hd, hv⟩ := einstein_contraction_partial (0 : ℤ) (Tensor.ofList M [4, 4]) (Tensor.ofList v [4])
    (i1 := [⟨0, true⟩, ⟨1, true⟩]) (i2 := [⟨1, false⟩]) (by decide) (by decide) (fun _ => 4) (by decide) (by decide) rfl rfl (by decide)
  have hi' : r.indices = [⟨0, true⟩] := by rw [hi]; decide
  refine ⟨r, hr, hi', ?_⟩
  intro k hk
  have := hv (fun _ => k) (by intro x _; exact hk)
  rw [hi'] at this
  refine this.trans ?_
  simp [names, sumOver, Finset.sum_range_succ, metric]
  ring

/-- A product of two contracted vectors has no index left; multiplying it by a further tensor writes outside an
empty array, so the statement above does not extend to factors without indices. -/
theorem einstein_contraction_counterexample {K : Type} [CommRing K] (poison : K) (p q r : Tensor K) (hp : p.dim = [4]) (hq : q.dim = [4]) :
    ∃ s, contract poison ⟨p, [⟨0, true⟩]⟩ ⟨q, [⟨0, false⟩]⟩ = some s ∧ contract poison s ⟨r, [⟨1, true⟩]⟩ = none := by
  obtain ⟨s, hs, hi, _⟩ := einstein_contraction_partial poison p q (i1 := [⟨0, true⟩]) (i2 := [⟨0, false⟩]) (by decide) (by decide) (fun _ => 4)
    (by decide) (by decide) hp hq (by decide)
  refine ⟨s, hs, ?_⟩
  have hi' : s.indices = [] := by rw [hi]; decide
  unfold contract
  rw [if_pos]
  left; rw [hi']; rfl

example : (Tensor.zero (K := ℤ) [4]).dim = [4] := rfl

/-! ### C54 -/

/-- After `imposeSymmetry( A, B )` on a tensor without symmetries, two coordinates share an element exactly if they are equal or
differ by exchanging the values at `A` and `B`, and the tensor is in working order. -/
theorem imposed_symmetry {K : Type} {t : Tensor K} {A B : Nat} (hAB : A < B) (hB : B < t.dim.length)
    (hd : t.dim.getD A 0 = t.dim.getD B 0) (hf : t.sym = List.range t.dim.prod) (he : t.elements.length = t.dim.prod) :
    Sound (imposeSymmetry t A B) ∧ (imposeSymmetry t A B).dim = t.dim ∧ (imposeSymmetry t A B).elements = t.elements ∧
    ∀ co co', Valid co t.dim → Valid co' t.dim → (SamePlace (imposeSymmetry t A B) co co' ↔
      co' = co ∨ co' = (co.set A (co.getD B 0)).set B (co.getD A 0)) :=
  ⟨imposeSymmetry_sound hAB hB hd hf he, rfl, rfl, fun _ _ h h' => imposeSymmetry_samePlace hAB hB hd hf h h'⟩

/-- Whatever is written to the elements, the two coordinates read the same. -/
theorem imposed_symmetry_read {K : Type} (poison : K) {t : Tensor K} {A B : Nat} (hAB : A < B) (hB : B < t.dim.length)
    (hd : t.dim.getD A 0 = t.dim.getD B 0) (hf : t.sym = List.range t.dim.prod) (values : List K) (hv : values.length = t.dim.prod)
    {co : List Nat} (h : Valid co t.dim) (h' : Valid ((co.set A (co.getD B 0)).set B (co.getD A 0)) t.dim) :
    ({ imposeSymmetry t A B with elements := values } : Tensor K).at poison ((co.set A (co.getD B 0)).set B (co.getD A 0)) =
      ({ imposeSymmetry t A B with elements := values } : Tensor K).at poison co := by
  have := (imposeSymmetry_samePlace hAB hB hd hf h h').mpr (Or.inr rfl)
  unfold SamePlace at this
  unfold Tensor.at Tensor.atIndex
  simp only
  rw [List.getD_eq_getElem?_getD (l := (imposeSymmetry t A B).sym), List.getD_eq_getElem?_getD (l := (imposeSymmetry t A B).sym), this]

example : (0 : Nat) < 1 ∧ 1 < (Tensor.zero (K := ℤ) [4, 4]).dim.length ∧ (Tensor.zero (K := ℤ) [4, 4]).sym = List.range 16 ∧
    (Tensor.zero (K := ℤ) [4, 4]).elements.length = 16 := by decide

/-! ### C55 -/

/-- The sum of two tensors with named indices, the right one carrying the same names in any order: element by element the sum of the
elements addressed by the names.  The left tensor may have imposed symmetries provided the right one has the same values wherever the left
one stores two coordinates in one place.  Partial: without this condition it fails, see below. -/
theorem tensor_addition_partial {K : Type} [CommRing K] (poison : K) (a b : Tensor K) {i1 i2 : List Index} (h1 : (names i1).Nodup)
    (hp : (names i2).Perm (names i1)) (D : Nat → Nat) (d1 : a.dim = (names i1).map D) (hs : Sound a)
    (hsym : ∀ f f' : Nat → Nat, (∀ x ∈ names i1, f x < D x) → (∀ x ∈ names i1, f' x < D x) →
      SamePlace a ((names i1).map f) ((names i1).map f') → b.at poison ((names i2).map f) = b.at poison ((names i2).map f')) :
    ∃ r, add poison ⟨a, i1⟩ ⟨b, i2⟩ = some r ∧ r.indices = i1 ∧ r.tensor.dim = a.dim ∧
      ∀ f : Nat → Nat, (∀ x ∈ names i1, f x < D x) →
        r.tensor.at poison ((names i1).map f) = a.at poison ((names i1).map f) + b.at poison ((names i2).map f) :=
  add_spec poison a b h1 hp D d1 hs hsym

/-- With no imposed symmetry on the left there is no condition on the right. -/
theorem tensor_addition_plain {K : Type} [CommRing K] (poison : K) (elements : List K) (b : Tensor K) {i1 i2 : List Index}
    (h1 : (names i1).Nodup) (hp : (names i2).Perm (names i1)) (D : Nat → Nat) (hl : elements.length = ((names i1).map D).prod) :
    ∃ r, add poison ⟨Tensor.ofList elements ((names i1).map D), i1⟩ ⟨b, i2⟩ = some r ∧ r.indices = i1 ∧
      ∀ f : Nat → Nat, (∀ x ∈ names i1, f x < D x) →
        r.tensor.at poison ((names i1).map f) = (Tensor.ofList elements ((names i1).map D)).at poison ((names i1).map f) +
          b.at poison ((names i2).map f) := by
  have key : ∀ f f' : Nat → Nat, (∀ x ∈ names i1, f x < D x) → (∀ x ∈ names i1, f' x < D x) →
      SamePlace (Tensor.ofList elements ((names i1).map D)) ((names i1).map f) ((names i1).map f') →
      b.at poison ((names i2).map f) = b.at poison ((names i2).map f') := by
    intro f f' hf hf' hsame
    have e1 : (Tensor.ofList elements ((names i1).map D)).sym = List.range ((names i1).map D).prod := by
      show List.range (nCoordinates _) = _; unfold nCoordinates; rw [foldl_prod]
    unfold SamePlace at hsame
    have g := toIndex_lt (valid_map hf)
    have g' := toIndex_lt (valid_map hf')
    rw [e1] at hsame
    have hsame2 : (List.range ((names i1).map D).prod)[coordinatesToIndex ((names i1).map f) ((names i1).map D)]? =
      (List.range ((names i1).map D).prod)[coordinatesToIndex ((names i1).map f') ((names i1).map D)]? := hsame
    rw [List.getElem?_range g, List.getElem?_range g', Option.some.injEq] at hsame2
    have : (names i1).map f = (names i1).map f' := by
      rw [← toCoords_toIndex (valid_map hf), hsame2, toCoords_toIndex (valid_map hf')]
    have hpt : ∀ x ∈ names i1, f x = f' x := List.map_inj_left.mp this
    congr 1
    exact List.map_congr_left fun x hx => hpt x (hp.mem_iff.mp hx)
  obtain ⟨r, hr, hi, _, hv⟩ := tensor_addition_partial poison (Tensor.ofList elements ((names i1).map D)) b h1 hp D rfl (sound_ofList hl) key
  exact ⟨r, hr, hi, hv⟩

/-- Adding the transpose: `A(i,j) + A(j,i)`. -/
example (M : List ℤ) (hM : M.length = 4) : ∃ r, add 0 ⟨Tensor.ofList M [2, 2], [⟨0, true⟩, ⟨1, true⟩]⟩ ⟨Tensor.ofList M [2, 2], [⟨1, true⟩, ⟨0, true⟩]⟩ = some r ∧
    r.tensor.at 0 [0, 1] = (Tensor.ofList M [2, 2]).at 0 [0, 1] + (Tensor.ofList M [2, 2]).at 0 [1, 0] := by
  obtain ⟨r, hr, _, hv⟩ := tensor_addition_plain (0 : ℤ) M (Tensor.ofList M [2, 2]) (i1 := [⟨0, true⟩, ⟨1, true⟩]) (i2 := [⟨1, true⟩, ⟨0, true⟩])
    (by decide) (by decide) (fun _ => 2) (by simpa [names] using hM)
  refine ⟨r, hr, ?_⟩
  have := hv (fun x => x) (by decide)
  exact this

/-- A symmetrised tensor plus one that is not symmetric: the elements of the sum are not the sums of the elements. -/
theorem tensor_addition_counterexample :
    ∃ r, add (0 : ℤ) ⟨imposeSymmetry (Tensor.zero [2, 2]) 0 1, [⟨0, true⟩, ⟨1, true⟩]⟩
        ⟨Tensor.ofList [0, 1, 2, 3] [2, 2], [⟨0, true⟩, ⟨1, true⟩]⟩ = some r ∧
      (imposeSymmetry (Tensor.zero (K := ℤ) [2, 2]) 0 1).at 0 [0, 1] + (Tensor.ofList [0, 1, 2, 3] [2, 2]).at 0 [0, 1] = 1 ∧
      r.tensor.at 0 [0, 1] = 2 := by
  refine ⟨_, rfl, ?_⟩
  decide +kernel

/-! ### C56 -/

/-- `LeviCivita( n )` has the sign of the permutation at its values and zero where a value is repeated, for every `n` and
whichever order the permutations are visited in.  The integers are unbounded here; the code's `int` suffices up to rank seven. -/
theorem levi_civita {K : Type} [CommRing K] (poison : K) {n : Nat} (hn : 0 < n) {perms : List (List Nat)}
    (hp : ∀ p, p ∈ perms ↔ p.Perm (List.range n)) :
    (∀ σ : Equiv.Perm (Fin n), (leviCivita (K := K) n perms).at poison (List.ofFn fun i => (σ i).val) = ((Equiv.Perm.sign σ : Int) : K)) ∧
    ∀ co, Valid co (List.replicate n n) → ¬ co.Nodup → (leviCivita (K := K) n perms).at poison co = 0 :=
  levi_spec poison hn hp

/-- There is such a list of permutations. -/
example (n : Nat) : ∃ perms : List (List Nat), ∀ p, p ∈ perms ↔ p.Perm (List.range n) :=
  ⟨(List.range n).permutations, fun p => List.mem_permutations⟩

end AmpGen.Tensor
