import Verif.Tensor.LemmasC
/-
Addition.
-/
namespace AmpGen.Tensor

theorem addFold_spec {K : Type} [CommRing K] (poison : K) (F : Nat → K) : ∀ (l : List Nat) (t : Tensor K), l.Nodup →
    (∀ i ∈ l, t.sym[i]? = some i) → (∀ i ∈ l, i < t.elements.length) →
    let r := l.foldl (fun (r : Tensor K) i => r.setIndex i (r.atIndex poison i + F i)) t
    r.dim = t.dim ∧ r.sym = t.sym ∧ r.unique = t.unique ∧ r.elements.length = t.elements.length ∧
      ∀ e, r.elements.getD e poison = if e ∈ l then t.elements.getD e poison + F e else t.elements.getD e poison := by
  intro l
  induction l with
  | nil => intro t _ _ _; simp
  | cons i l ih =>
    intro t hnd hown hst
    rw [List.nodup_cons] at hnd
    have hi := hst i (by simp)
    have hsym : ∀ d, t.sym.getD i d = i := by
      intro d; rw [List.getD_eq_getElem?_getD, hown i (by simp)]; rfl
    have hset : t.setIndex i (t.atIndex poison i + F i) =
        { t with elements := t.elements.set i (t.elements.getD i poison + F i) } := by
      unfold Tensor.setIndex Tensor.atIndex
      rw [hsym]
    obtain ⟨r1, r2, r3, r4, r5⟩ := ih { t with elements := t.elements.set i (t.elements.getD i poison + F i) } hnd.2
      (fun k hk => hown k (List.mem_cons_of_mem _ hk)) (fun k hk => by simpa using hst k (List.mem_cons_of_mem _ hk))
    rw [List.foldl_cons, hset]
    refine ⟨r1, r2, r3, by simpa using r4, ?_⟩
    intro e
    rw [r5 e]
    simp only
    by_cases hel : e ∈ l
    · have hne : i ≠ e := by rintro rfl; exact hnd.1 hel
      rw [if_pos hel, if_pos (List.mem_cons_of_mem _ hel), List.getD_eq_getElem?_getD, List.getElem?_set_ne hne, ← List.getD_eq_getElem?_getD]
    · rw [if_neg hel]
      by_cases he : e = i
      · subst he
        rw [if_pos (by simp), List.getD_eq_getElem?_getD, List.getElem?_set_self hi]; rfl
      · rw [if_neg (by simp [he, hel]), List.getD_eq_getElem?_getD, List.getElem?_set_ne (fun h => he h.symm), ← List.getD_eq_getElem?_getD]

theorem mapping_spec {i1 : List Index} (h1 : (names i1).Nodup) : ∀ (l : List Index), (∀ b ∈ l, b.name ∈ names i1) →
    (l.filterMap fun b => i1.findIdx? fun a => a.name == b.name) = (names l).map fun x => (names i1).idxOf x := by
  intro l
  induction l with
  | nil => intro _; rfl
  | cons b l ih =>
    intro h
    rw [List.filterMap_cons]
    have hb := h b (by simp)
    have hf : (i1.findIdx? fun a => a.name == b.name) = some ((names i1).idxOf b.name) := by
      rw [List.findIdx?_eq_some_iff_getElem]
      have hlt : (names i1).idxOf b.name < (names i1).length := List.idxOf_lt_length_of_mem hb
      have hlt' : (names i1).idxOf b.name < i1.length := by unfold names at hlt ⊢; rwa [List.length_map] at hlt
      have hget : i1[(names i1).idxOf b.name].name = b.name := by
        have := List.getElem_idxOf hlt
        have e2 : (names i1)[(names i1).idxOf b.name] = i1[(names i1).idxOf b.name].name := by
          simp only [names, List.getElem_map]
        rw [← e2]; exact this
      refine ⟨hlt', by rw [hget]; exact beq_self_eq_true _, ?_⟩
      intro j hj
      rw [beq_iff_eq]
      intro he
      have hj' : j < (names i1).length := by omega
      have hj2 : (names i1)[j] = b.name := by simpa only [names, List.getElem_map] using he
      have := (List.Nodup.getElem_inj_iff h1 (hi := hj') (hj := hlt)).mp (by rw [hj2, List.getElem_idxOf hlt])
      omega
    rw [hf]
    rw [ih fun b hb => h b (List.mem_cons_of_mem _ hb)]
    rfl

theorem valid_is_map {xs : List Nat} (hx : xs.Nodup) {D : Nat → Nat} {co : List Nat} (h : Valid co (xs.map D)) :
    co = xs.map (fun x => co.getD (xs.idxOf x) 0) ∧ ∀ x ∈ xs, co.getD (xs.idxOf x) 0 < D x := by
  have hl : co.length = xs.length := by rw [h.length, List.length_map]
  refine ⟨?_, ?_⟩
  · apply List.ext_getElem (by rw [List.length_map, hl])
    intro n h1 h2
    rw [List.getElem_map, List.Nodup.idxOf_getElem hx, List.getD_eq_getElem _ _ h1]
  · intro x hxm
    have hlt := List.idxOf_lt_length_of_mem hxm
    have h3 := (List.forall₂_iff_get.mp h).2 (xs.idxOf x) (by omega) (by rw [List.length_map]; exact hlt)
    rw [List.getD_eq_getElem _ _ (by omega)]
    simpa [List.getElem_idxOf] using h3

theorem add_spec {K : Type} [CommRing K] (poison : K) (a b : Tensor K) {i1 i2 : List Index} (h1 : (names i1).Nodup)
    (hp : (names i2).Perm (names i1)) (D : Nat → Nat) (d1 : a.dim = (names i1).map D) (hs : Sound a)
    (hsym : ∀ f f' : Nat → Nat, (∀ x ∈ names i1, f x < D x) → (∀ x ∈ names i1, f' x < D x) →
      SamePlace a ((names i1).map f) ((names i1).map f') → b.at poison ((names i2).map f) = b.at poison ((names i2).map f')) :
    ∃ r, add poison ⟨a, i1⟩ ⟨b, i2⟩ = some r ∧ r.indices = i1 ∧ r.tensor.dim = a.dim ∧
      ∀ f : Nat → Nat, (∀ x ∈ names i1, f x < D x) →
        r.tensor.at poison ((names i1).map f) = a.at poison ((names i1).map f) + b.at poison ((names i2).map f) := by
  have hmap : (i2.filterMap fun b => i1.findIdx? fun a => a.name == b.name) = (names i2).map fun x => (names i1).idxOf x := by
    apply mapping_spec h1
    intro b hb
    exact hp.mem_iff.mp (List.mem_map_of_mem hb)
  have hlen : ¬ (i2.filterMap fun b => i1.findIdx? fun a => a.name == b.name).length ≠ i1.length := by
    rw [hmap, List.length_map, hp.length_eq]; unfold names; rw [List.length_map]; exact fun h => h rfl
  refine ⟨_, by unfold add; rw [if_neg hlen], rfl, ?_⟩
  have hfold := addFold_spec poison (fun i => b.at poison ((List.range (indexToCoordinates i a.dim).length).map fun j =>
    (indexToCoordinates i a.dim).getD ((i2.filterMap fun b => i1.findIdx? fun a => a.name == b.name).getD j 0) 0)) a.unique a hs.once
    hs.own hs.stored
  obtain ⟨r1, r2, r3, r4, r5⟩ := hfold
  refine ⟨r1, ?_⟩
  intro f hf
  have hv : Valid ((names i1).map f) a.dim := by rw [d1]; exact valid_map hf
  have hidx := toIndex_lt hv
  set k := coordinatesToIndex ((names i1).map f) a.dim with hk
  have hk2 : k < a.sym.length := by rw [hs.size]; exact hidx
  have hget : a.sym[k]? = some a.sym[k] := List.getElem?_eq_getElem hk2
  set e := a.sym[k] with he
  have heu : e ∈ a.unique := hs.listed e (List.getElem_mem hk2)
  unfold Tensor.at Tensor.atIndex at *
  rw [r1, r2, r4, ← hk]
  have hsd : ∀ d, a.sym.getD k d = e := by intro d; rw [List.getD_eq_getElem?_getD, hget]; rfl
  rw [hsd, r5 e, if_pos heu]
  refine congrArg₂ (· + ·) rfl ?_
  -- the coordinates of the place in use
  have hown := hs.own e heu
  have hel : e < a.dim.prod := by
    rw [← hs.size]; exact (List.getElem?_eq_some_iff.mp hown).1
  have hv2 := toCoords_valid hel
  rw [d1] at hv2
  obtain ⟨hc1, hc2⟩ := valid_is_map h1 hv2
  rw [← d1] at hc1 hc2
  have hsame : SamePlace a ((names i1).map f) ((names i1).map fun x => (indexToCoordinates e a.dim).getD ((names i1).idxOf x) 0) := by
    unfold SamePlace
    rw [← hk, ← hc1, toIndex_toCoords hel, hget, hown]
  rw [hsym f _ hf hc2 hsame, hmap]
  have hco : ((List.range (indexToCoordinates e a.dim).length).map fun j =>
      (indexToCoordinates e a.dim).getD (((names i2).map fun x => (names i1).idxOf x).getD j 0) 0) =
      (names i2).map fun x => (indexToCoordinates e a.dim).getD ((names i1).idxOf x) 0 := by
    have hl : (indexToCoordinates e a.dim).length = (names i2).length := by
      rw [toCoords_length, d1, List.length_map, hp.length_eq]
    rw [hl]
    apply List.ext_getElem (by simp)
    intro n g1 g2
    rw [List.length_map] at g2
    have e3 : ((names i2).map fun x => (names i1).idxOf x).getD n 0 = (names i1).idxOf (names i2)[n] := by
      rw [List.getD_eq_getElem _ _ (by rw [List.length_map]; exact g2), List.getElem_map]
    rw [List.getElem_map, List.getElem_map, List.getElem_range, e3]
  rw [hco]

theorem sound_zero {K : Type} [CommRing K] {dim : List Nat} (hd : ∀ d ∈ dim, 0 < d) : Sound (Tensor.zero (K := K) dim) := by
  have e1 : (Tensor.zero (K := K) dim).sym = List.range dim.prod := by
    show List.range (nCoordinates dim) = _; unfold nCoordinates; rw [foldl_prod]
  have e2 : (Tensor.zero (K := K) dim).unique = List.range dim.prod := e1
  have e3 : (Tensor.zero (K := K) dim).elements.length = dim.prod := by
    show (List.replicate (nElements dim) (0 : K)).length = _; rw [List.length_replicate, nElements_eq hd]
  refine ⟨?_, ?_, ?_, ?_, ?_⟩
  · rw [e1, List.length_range]; rfl
  · rw [e1, e2]; exact fun i h => h
  · rw [e2]; exact List.nodup_range
  · rw [e1, e2]; intro i h; rw [List.getElem?_range (List.mem_range.mp h)]
  · rw [e2, e3]; exact fun i h => List.mem_range.mp h

theorem sound_ofList {K : Type} {elements : List K} {dim : List Nat} (h : elements.length = dim.prod) :
    Sound (Tensor.ofList elements dim) := by
  have e1 : (Tensor.ofList elements dim).sym = List.range dim.prod := by
    show List.range (nCoordinates dim) = _; unfold nCoordinates; rw [foldl_prod]
  have e2 : (Tensor.ofList elements dim).unique = List.range dim.prod := e1
  refine ⟨?_, ?_, ?_, ?_, ?_⟩
  · rw [e1, List.length_range]; rfl
  · rw [e1, e2]; exact fun i h => h
  · rw [e2]; exact List.nodup_range
  · rw [e1, e2]; intro i h; rw [List.getElem?_range (List.mem_range.mp h)]
  · rw [e2]; intro i hi; show i < elements.length; rw [h]; exact List.mem_range.mp hi

end AmpGen.Tensor
