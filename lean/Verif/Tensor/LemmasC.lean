import Verif.Tensor.LemmasB
import Mathlib.Data.List.GetD
/-
Assembling the result of a contraction.
-/
namespace AmpGen.Tensor

theorem freeIndices_eq {i1 i2 : List Index} (D : Nat → Nat) :
    freeIndices i1 i2 ((names i1).map D) ((names i2).map D) =
      ((i1.filter fun a => a.name ∉ names i2) ++ (i2.filter fun a => a.name ∉ names i1)).map fun a => (a, D a.name) := by
  have key : ∀ (l m : List Index), ((l.zip ((names l).map D)).filter fun p => m.all fun q => q.name != p.1.name) =
      (l.filter fun a => a.name ∉ names m).map fun a => (a, D a.name) := by
    intro l m
    have hz : l.zip ((names l).map D) = l.map fun a => (a, D a.name) := by
      unfold names
      rw [List.map_map]
      induction l with
      | nil => rfl
      | cons a l ih => rw [List.map_cons, List.zip_cons_cons, ih]; rfl
    rw [hz, List.filter_map]
    congr 1
    apply List.filter_congr
    intro a _
    simp only [Function.comp_apply]
    rw [Bool.eq_iff_iff]
    simp only [List.all_eq_true, bne_iff_ne, ne_eq, decide_eq_true_eq, names, List.mem_map, not_exists, not_and]
  unfold freeIndices
  rw [key, key, List.map_append]

theorem names_filter (l : List Index) (p : Nat → Bool) : names (l.filter fun a => p a.name) = (names l).filter p := by
  unfold names
  rw [List.filter_map]
  rfl

theorem getElem?_unique {N : List Nat} (hN : N.Nodup) {i j x : Nat} (hi : N[i]? = some x) (hj : N[j]? = some x) : i = j := by
  have h1 := (List.getElem?_eq_some_iff.mp hi)
  have h2 := (List.getElem?_eq_some_iff.mp hj)
  exact (List.Nodup.getElem_inj_iff hN (hi := h1.1) (hj := h2.1)).mp (h1.2.trans h2.2.symm)

theorem forall₂_any {i1 i2 : List Index} {xs : List Nat} {cs : List Contractor} (h : List.Forall₂ (Pairs i1 i2) xs cs)
    {N : List Nat} (hN : N.Nodup) (pr : Contractor → Nat) (hpr : ∀ x c, Pairs i1 i2 x c → N[pr c]? = some x)
    {i x : Nat} (hi : N[i]? = some x) : (cs.any fun c => pr c == i) = decide (x ∈ xs) := by
  induction h with
  | nil => simp
  | @cons y c xs cs hp h ih =>
    rw [List.any_cons, ih]
    have := hpr y c hp
    rw [Bool.eq_iff_iff]
    simp only [Bool.or_eq_true, beq_iff_eq, decide_eq_true_eq, List.mem_cons]
    constructor
    · rintro (e | e)
      · left; rw [e, hi] at this; exact Option.some.inj this
      · right; exact e
    · rintro (e | e)
      · left; subst e; exact getElem?_unique hN this hi
      · right; exact e

theorem shared_length {i1 i2 : List Index} (h1 : (names i1).Nodup) (h2 : (names i2).Nodup) :
    i1.length - (shared i1 i2).length = ((names i1).filter fun x => x ∉ names i2).length := by
  have hp : (shared i1 i2).Perm ((names i1).filter fun x => x ∈ names i2) := by
    refine (List.perm_ext_iff_of_nodup (h2.filter _) (h1.filter _)).mpr ?_
    intro x
    simp only [shared, List.mem_filter, decide_eq_true_eq]
    exact and_comm
  rw [hp.length_eq]
  have := List.length_eq_length_filter_add (l := names i1) (fun x => x ∈ names i2)
  have hl : (names i1).length = i1.length := by unfold names; rw [List.length_map]
  have e : ((names i1).filter fun x => !decide (x ∈ names i2)) = (names i1).filter fun x => x ∉ names i2 := by
    apply List.filter_congr; intro x _; simp
  rw [e] at this
  omega

theorem dims_eq {i1 i2 : List Index} {xs : List Nat} {cs : List Contractor} (h : List.Forall₂ (Pairs i1 i2) xs cs) (D : Nat → Nat) :
    (cs.map fun c => ((names i1).map D).getD c.i 0) = xs.map D := by
  induction h with
  | nil => rfl
  | @cons x c xs cs hp h ih =>
    rw [List.map_cons, List.map_cons, ih, List.getD_eq_getElem?_getD, List.getElem?_map, hp.1]
    rfl

/-- Filling a fresh tensor element by element. -/
theorem fill_spec {K : Type} [CommRing K] {dim : List Nat} (hd : ∀ d ∈ dim, 0 < d) (F : Nat → K) :
    (List.range (nElements dim)).foldl (fun (t : Tensor K) e => t.setIndex e (F e)) (Tensor.zero dim) =
      ⟨dim, List.range dim.prod, List.range dim.prod, (List.range dim.prod).map F⟩ := by
  rw [nElements_eq hd]
  have key : ∀ n, n ≤ dim.prod → (List.range n).foldl (fun (t : Tensor K) e => t.setIndex e (F e)) (Tensor.zero dim) =
      ⟨dim, List.range dim.prod, List.range dim.prod, (List.range n).map F ++ List.replicate (dim.prod - n) 0⟩ := by
    intro n
    induction n with
    | zero =>
      intro _
      show Tensor.zero dim = _
      unfold Tensor.zero nCoordinates
      rw [nElements_eq hd, foldl_prod]; rfl
    | succ n ih =>
      intro hn
      rw [List.range_succ, List.foldl_append, List.foldl_cons, List.foldl_nil, ih (by omega)]
      unfold Tensor.setIndex
      have e1 : (List.range dim.prod).getD n ((List.range n).map F ++ List.replicate (dim.prod - n) 0).length = n := by
        rw [List.getD_eq_getElem _ _ (by rw [List.length_range]; omega), List.getElem_range]
      simp only [e1]
      congr 1
      have e2 : dim.prod - n = (dim.prod - (n + 1)) + 1 := by omega
      rw [e2, List.replicate_succ, List.set_append_right _ _ (by simp)]
      simp
  rw [key _ le_rfl, Nat.sub_self]
  simp

/-- Reading the filled tensor. -/
theorem fill_at {K : Type} [CommRing K] (poison : K) {dim : List Nat} (F : Nat → K) {co : List Nat} (h : Valid co dim) :
    (⟨dim, List.range dim.prod, List.range dim.prod, (List.range dim.prod).map F⟩ : Tensor K).at poison co =
      F (coordinatesToIndex co dim) := by
  have hlt := toIndex_lt h
  unfold Tensor.at Tensor.atIndex
  simp only
  have e : ∀ d, (List.range dim.prod).getD (coordinatesToIndex co dim) d = coordinatesToIndex co dim := by
    intro d
    rw [List.getD_eq_getElem _ _ (by rw [List.length_range]; exact hlt), List.getElem_range]
  rw [e, List.getD_eq_getElem _ _ (by simpa using hlt), List.getElem_map, List.getElem_range]

theorem valid_map {xs : List Nat} {f D : Nat → Nat} (h : ∀ x ∈ xs, f x < D x) : Valid (xs.map f) (xs.map D) := by
  induction xs with
  | nil => exact List.Forall₂.nil
  | cons x xs ih =>
    exact List.Forall₂.cons (h x (by simp)) (ih fun y hy => h y (List.mem_cons_of_mem _ hy))

theorem contract_spec {K : Type} [CommRing K] (poison : K) (a b : Tensor K) {i1 i2 : List Index} (h1 : (names i1).Nodup)
    (h2 : (names i2).Nodup) (D : Nat → Nat) (n1 : i1 ≠ []) (n2 : i2 ≠ []) (d1 : a.dim = (names i1).map D) (d2 : b.dim = (names i2).map D)
    (hpos : ∀ x ∈ names i1 ++ names i2, 0 < D x) :
    ∃ r, contract poison ⟨a, i1⟩ ⟨b, i2⟩ = some r ∧
      r.indices = (i1.filter fun x => x.name ∉ names i2) ++ (i2.filter fun x => x.name ∉ names i1) ∧
      r.tensor.dim = (names r.indices).map D ∧
      ∀ f : Nat → Nat, (∀ x ∈ names r.indices, f x < D x) →
        r.tensor.at poison ((names r.indices).map f) =
          sumOver ((shared i1 i2).map fun x => (x, D x)) f (fun g =>
            (((shared i1 i2).map fun x => metric x i1 i2 (g x)).prod : Int) * a.at poison ((names i1).map g) *
              b.at poison ((names i2).map g)) := by
  have hcs := contractions_spec h1 h2
  set free := (i1.filter fun x => x.name ∉ names i2) ++ (i2.filter fun x => x.name ∉ names i1) with hfree
  have hn : ¬ (i1.length = 0 ∨ i2.length = 0) := by
    rw [List.length_eq_zero_iff, List.length_eq_zero_iff]; exact not_or.mpr ⟨n1, n2⟩
  have hdim : (freeIndices i1 i2 a.dim b.dim).map Prod.snd = (names free).map D := by
    rw [d1, d2, freeIndices_eq, ← hfree, List.map_map]; unfold names; rw [List.map_map]; rfl
  have hind : (freeIndices i1 i2 a.dim b.dim).map Prod.fst = free := by
    rw [d1, d2, freeIndices_eq, ← hfree, List.map_map]
    exact List.map_id' _
  have hnf : names free = ((names i1).filter fun x => x ∉ names i2) ++ ((names i2).filter fun x => x ∉ names i1) := by
    rw [hfree]
    show List.map _ _ = _
    rw [List.map_append]
    exact congrArg₂ (· ++ ·) (names_filter i1 (fun x => x ∉ names i2)) (names_filter i2 (fun x => x ∉ names i1))
  have hposf : ∀ d ∈ (names free).map D, 0 < d := by
    intro d hd
    obtain ⟨x, hx, rfl⟩ := List.mem_map.mp hd
    apply hpos
    rw [hnf] at hx
    rcases List.mem_append.mp hx with h | h
    · exact List.mem_append_left _ (List.mem_of_mem_filter h)
    · exact List.mem_append_right _ (List.mem_of_mem_filter h)
  refine ⟨_, by unfold contract; rw [if_neg hn], ?_⟩
  simp only [hdim, hind, foldl_prod]
  rw [fill_spec hposf]
  refine ⟨trivial, rfl, ?_⟩
  intro f hf
  have hv : Valid ((names free).map f) ((names free).map D) := valid_map hf
  rw [fill_at poison _ hv, toCoords_toIndex hv]
  have ed : (contractions i1 i2).map (fun c => a.dim.getD c.i 0) = (shared i1 i2).map D := by rw [d1]; exact dims_eq hcs D
  rw [ed]
  have hl1 : i1.length = (names i1).length := by unfold names; rw [List.length_map]
  have hl2 : i2.length = (names i2).length := by unfold names; rw [List.length_map]
  have hj : i1.length - (contractions i1 i2).length = (((names i1).filter fun x => x ∉ names i2).map f).length := by
    rw [← hcs.length_eq, shared_length h1 h2, List.length_map]
  refine elementSum_spec poison a b h1 h2 D f ?_ ?_
  · have hs : ∀ (i x : Nat), (names i1)[i]? = some x →
        ((contractions i1 i2).any fun c => c.i == i) = !(decide (x ∉ names i2)) := by
      intro i x hi
      rw [forall₂_any hcs h1 Contractor.i (fun x c hc => hc.1) hi]
      have : x ∈ names i1 := List.mem_of_getElem? hi
      simp [shared, this]
    have := distribute_spec (N := names i1) (free := fun x => x ∉ names i2) (f := f) (pre := [])
      (post := ((names i2).filter fun x => x ∉ names i1).map f) hs
    rw [hnf, List.map_append, hl1]
    refine ⟨this.1, fun i x hi hx => this.2 i x hi ?_⟩
    have : x ∈ names i1 := List.mem_of_getElem? hi
    simpa [shared, this] using hx
  · have hs : ∀ (i x : Nat), (names i2)[i]? = some x →
        ((contractions i1 i2).any fun c => c.j == i) = !(decide (x ∉ names i1)) := by
      intro i x hi
      rw [forall₂_any hcs h2 Contractor.j (fun x c hc => hc.2.1) hi]
      have : x ∈ names i2 := List.mem_of_getElem? hi
      simp [shared, this]
    have := distribute_spec (N := names i2) (free := fun x => x ∉ names i1) (f := f)
      (pre := ((names i1).filter fun x => x ∉ names i2).map f) (post := []) hs
    rw [List.append_nil] at this
    rw [hnf, List.map_append, hj, hl2]
    refine ⟨this.1, fun i x hi hx => this.2 i x hi ?_⟩
    have : x ∈ names i2 := List.mem_of_getElem? hi
    simpa [shared, this] using hx

end AmpGen.Tensor
